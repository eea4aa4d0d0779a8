/-!
`match` and `visitor`, `lager/util.hpp:28-48`, `:50-66`, `:127-157`.

What `match` does rests on the rules of C++ for the choice of an overload, which are part of the model.  Simplified:
parameters of handlers differ by type only, not by `const`, references or move.
-/

namespace Verif.Match

set_option linter.unusedSectionVars false

variable {T V L U : Type} [DecidableEq T] [DecidableEq U]

/-- A parameter of a handler: `auto`, or a type. -/
inductive Param (T : Type) where
  | any
  | type (t : T)
deriving DecidableEq

/-- What a handler returns: a value, or a reference to what is at some place. -/
inductive Res (V L : Type) where
  | val (v : V)
  | ref (l : L)
deriving DecidableEq

/-- A lambda that is given to `match`.  `ret` is the type it returns for arguments of these types. -/
structure Handler (T V L U : Type) where
  params : List (Param T)
  ret : List T → U
  body : List (T × V) → Res V L

/-- The rules of the language: how good the implicit conversion from one type to another is, if there is one (0 is none
at all), and what it does to values. -/
structure Lang (T V : Type) where
  conv : T → T → Option Nat
  cast : T → T → V → V

/-- Only a type itself needs no conversion. -/
def Lang.ok (g : Lang T V) : Prop := ∀ t p, g.conv t p = some 0 ↔ t = p

/-- How good the conversion of an argument is; a type is deduced for `auto`. -/
def Lang.cost (g : Lang T V) (t : T) : Param T → Option Nat
  | .any => some 0
  | .type p => g.conv t p

/-- … of all arguments; nothing if the handler cannot be called with them. -/
def Lang.costs (g : Lang T V) : List T → List (Param T) → Option (List Nat)
  | [], [] => some []
  | t :: ts, p :: ps => (g.cost t p).bind fun n => (g.costs ts ps).map (n :: ·)
  | _, _ => none

/-- Not worse for any argument. -/
def leAll : List Nat → List Nat → Bool
  | x :: xs, y :: ys => decide (x ≤ y) && leAll xs ys
  | _, _ => true

/-- Is it a template? -/
def generic (ps : List (Param T)) : Bool := ps.any (· == .any)

/-- As specialised, for the order of templates. -/
def spec : List (Param T) → List (Param T) → Bool
  | p :: ps, q :: qs => (q == .any || p == q) && spec ps qs
  | _, _ => true

/-- Is a handler a better one?  The conversions are not worse and some are better; or else one is not a template and the
other one is; or else it is the more specialised template. -/
def Lang.beats (g : Lang T V) (ts : List T) (ps qs : List (Param T)) : Bool :=
  match g.costs ts ps, g.costs ts qs with
  | some xs, some ys =>
    leAll xs ys && (!leAll ys xs || (!generic ps && generic qs) ||
      (generic ps && generic qs && spec ps qs && !spec qs ps))
  | _, _ => false

/-- Can the handler be called with values of these types? -/
def Lang.viable (g : Lang T V) (ts : List T) (h : Handler T V L U) : Bool := (g.costs ts h.params).isSome

/-- The overload that is chosen among all `operator()` of the `visitor`, `util.hpp:40-44`: the one that is better than all
others.  (The only one that it is not better than is itself.) -/
def Lang.pick (g : Lang T V) (hs : List (Handler T V L U)) (ts : List T) : Option (Handler T V L U) :=
  hs.find? fun h => g.viable ts h && (hs.countP fun k => g.viable ts k && !g.beats ts h.params k.params) == 1

/-- All combinations of alternatives. -/
def combos : List (List T) → List (List T)
  | [] => [[]]
  | as :: rest => as.flatMap fun a => (combos rest).map (a :: ·)

/-- `std::visit` is well-formed: an overload can be chosen for every combination of alternatives, and they return the
same type. -/
def Lang.compiles (g : Lang T V) (alts : List (List T)) (hs : List (Handler T V L U)) : Bool :=
  (combos alts).all fun ts => (combos alts).all fun us =>
    match g.pick hs ts, g.pick hs us with
    | some h, some k => decide (h.ret ts = k.ret us)
    | _, _ => false

/-- The arguments as the handler gets them. -/
def Lang.pass (g : Lang T V) : List (T × V) → List (Param T) → List (T × V)
  | (t, v) :: xs, .any :: ps => (t, v) :: g.pass xs ps
  | (t, v) :: xs, .type p :: ps => (p, if t = p then v else g.cast t p v) :: g.pass xs ps
  | _, _ => []

/-- What comes of a call. -/
inductive Out (V L : Type) where
  /-- the program does not compile -/
  | rejected
  /-- `std::bad_variant_access` -/
  | bad
  | returned (r : Res V L)
deriving DecidableEq

/-- The values in the variants, unless one of them has none. -/
def held : List (Option (T × V)) → Option (List (T × V))
  | [] => some []
  | x :: xs => x.bind fun x => (held xs).map (x :: ·)

/-- `std::visit(visitor{hs...}, vs...)`. -/
def Lang.visit (g : Lang T V) (alts : List (List T)) (hs : List (Handler T V L U)) (vs : List (Option (T × V))) : Out V L :=
  if g.compiles alts hs then
    match held vs with
    | none => .bad
    | some xs =>
      match g.pick hs (xs.map (·.1)) with
      | none => .rejected
      | some h => .returned (h.body (g.pass xs h.params))
  else .rejected

/-- The lambda in the matcher, `util.hpp:58-61`, has no return type, so that a reference is copied from. -/
def decay (mem : L → V) : Out V L → Out V L
  | .returned (.ref l) => .returned (.val (mem l))
  | o => o

/-- `match(vs...)(hs...)`, `util.hpp:54-64`, `:150-155`. -/
def Lang.doMatch (g : Lang T V) (mem : L → V) (alts : List (List T)) (hs : List (Handler T V L U)) (vs : List (Option (T × V))) :
    Out V L := decay mem (g.visit alts hs vs)

/-! ### Lemmas -/

theorem leAll_refl (xs : List Nat) : leAll xs xs = true := by
  induction xs with
  | nil => rfl
  | cons x xs ih => simp [leAll, ih]

theorem beats_asymm (g : Lang T V) {ts : List T} {ps qs : List (Param T)} (h : g.beats ts ps qs = true) :
    g.beats ts qs ps = false := by
  unfold Lang.beats at h ⊢
  cases h1 : g.costs ts ps with
  | none => rw [h1] at h; cases h
  | some xs =>
    cases h2 : g.costs ts qs with
    | none => rfl
    | some ys =>
      rw [h1, h2] at h
      dsimp only at h ⊢
      revert h
      cases leAll xs ys <;> cases leAll ys xs <;> cases generic ps <;> cases generic qs <;> cases spec ps qs <;>
        cases spec qs ps <;> decide

theorem beats_irrefl (g : Lang T V) (ts : List T) (ps : List (Param T)) : g.beats ts ps ps = false := by
  cases h : g.beats ts ps ps with
  | false => rfl
  | true => have := beats_asymm g h; rw [h] at this; exact this

/-- What is chosen. -/
structure Best (g : Lang T V) (hs : List (Handler T V L U)) (ts : List T) (h : Handler T V L U) : Prop where
  mem : h ∈ hs
  viable : g.viable ts h = true
  one : (hs.countP fun k => g.viable ts k && !g.beats ts h.params k.params) = 1

theorem pick_best {g : Lang T V} {hs : List (Handler T V L U)} {ts : List T} {h : Handler T V L U}
    (hp : g.pick hs ts = some h) : Best g hs ts h := by
  have h1 := List.find?_some hp
  simp only [Bool.and_eq_true, beq_iff_eq] at h1
  exact ⟨List.mem_of_find?_eq_some hp, h1.1, h1.2⟩

/-- Others are worse. -/
theorem countP_one {α : Type} {p : α → Bool} {l : List α} (h : l.countP p = 1) {x y : α} (hx : x ∈ l) (hy : y ∈ l)
    (px : p x = true) (py : p y = true) : x = y := by
  rw [List.countP_eq_length_filter] at h
  obtain ⟨z, hz⟩ := List.length_eq_one_iff.1 h
  have h1 : x ∈ l.filter p := List.mem_filter.2 ⟨hx, px⟩
  have h2 : y ∈ l.filter p := List.mem_filter.2 ⟨hy, py⟩
  rw [hz, List.mem_singleton] at h1 h2
  rw [h1, h2]

theorem Best.unique {g : Lang T V} {hs : List (Handler T V L U)} {ts : List T} {h k : Handler T V L U}
    (h1 : Best g hs ts h) (h2 : Best g hs ts k) : h = k := by
  have self : ∀ {x : Handler T V L U}, Best g hs ts x → (g.viable ts x && !g.beats ts x.params x.params) = true := by
    intro x hx; rw [hx.viable, beats_irrefl]; rfl
  cases hb : g.beats ts h.params k.params with
  | false => exact countP_one h1.one h1.mem h2.mem (self h1) (by rw [h2.viable, hb]; rfl)
  | true =>
    have hb' := beats_asymm g hb
    exact (countP_one h2.one h2.mem h1.mem (self h2) (by rw [h1.viable, hb']; rfl)).symm

theorem pick_eq {g : Lang T V} {hs : List (Handler T V L U)} {ts : List T} {h : Handler T V L U} (hb : Best g hs ts h) :
    g.pick hs ts = some h := by
  cases hp : g.pick hs ts with
  | some k => rw [(pick_best hp).unique hb]
  | none =>
    have := List.find?_eq_none.1 hp h hb.mem
    simp [hb.viable, hb.one] at this

theorem pick_perm (g : Lang T V) {hs ks : List (Handler T V L U)} (h : hs.Perm ks) (ts : List T) :
    g.pick hs ts = g.pick ks ts := by
  have go : ∀ {hs ks : List (Handler T V L U)} {x}, hs.Perm ks → Best g hs ts x → Best g ks ts x := fun h b =>
    ⟨h.mem_iff.1 b.mem, b.viable, by rw [← h.countP_eq]; exact b.one⟩
  cases h1 : g.pick hs ts with
  | some x => exact (pick_eq (go h (pick_best h1))).symm
  | none =>
    cases h2 : g.pick ks ts with
    | none => rfl
    | some x => rw [pick_eq (go h.symm (pick_best h2))] at h1; cases h1

theorem mem_combos {alts : List (List T)} {ts : List T} :
    ts ∈ combos alts ↔ ts.length = alts.length ∧ ∀ x ∈ ts.zip alts, x.1 ∈ x.2 := by
  induction alts generalizing ts with
  | nil => cases ts <;> simp [combos]
  | cons as rest ih =>
    cases ts with
    | nil => simp [combos]
    | cons t ts => simp [combos, ih, and_left_comm]

theorem costs_length {g : Lang T V} {ts : List T} {ps : List (Param T)} {xs : List Nat} (h : g.costs ts ps = some xs) :
    ps.length = ts.length ∧ xs.length = ts.length := by
  induction ts generalizing ps xs with
  | nil => cases ps <;> simp [Lang.costs] at h; subst h; simp
  | cons t ts ih =>
    cases ps with
    | nil => simp [Lang.costs] at h
    | cons p ps =>
      simp only [Lang.costs, Option.bind_eq_some_iff, Option.map_eq_some_iff] at h
      obtain ⟨n, _, ys, h2, rfl⟩ := h
      have := ih h2
      simp [this.1, this.2]

theorem costs_exact {g : Lang T V} (hg : g.ok) (ts : List T) :
    g.costs ts (ts.map .type) = some (List.replicate ts.length 0) := by
  induction ts with
  | nil => rfl
  | cons t ts ih => simp [Lang.costs, Lang.cost, (hg t t).2 rfl, ih, List.replicate_succ]

theorem leAll_zero (n : Nat) (ys : List Nat) : leAll (List.replicate n 0) ys = true := by
  induction n generalizing ys with
  | zero => cases ys <;> rfl
  | succ n ih => cases ys <;> simp [List.replicate_succ, leAll, ih]

theorem leAll_zeros {n : Nat} {ys : List Nat} (hl : ys.length = n) (h : leAll ys (List.replicate n 0) = true) :
    ys = List.replicate n 0 := by
  induction n generalizing ys with
  | zero => exact List.length_eq_zero_iff.1 hl
  | succ n ih =>
    cases ys with
    | nil => cases hl
    | cons y ys =>
      simp only [List.replicate_succ, leAll, Bool.and_eq_true, decide_eq_true_eq, Nat.le_zero] at h
      rw [h.1, ih (by simpa using hl) h.2]
      rfl

/-- No conversions and no `auto`: those are the types. -/
theorem costs_zero {g : Lang T V} (hg : g.ok) {ts : List T} {ps : List (Param T)} {n : Nat}
    (h : g.costs ts ps = some (List.replicate n 0)) (hn : generic ps = false) : ps = ts.map .type := by
  induction ts generalizing ps n with
  | nil => cases ps <;> simp [Lang.costs] at h; rfl
  | cons t ts ih =>
    cases ps with
    | nil => simp [Lang.costs] at h
    | cons p ps =>
      simp only [Lang.costs, Option.bind_eq_some_iff, Option.map_eq_some_iff] at h
      obtain ⟨m, h1, ys, h2, h3⟩ := h
      cases n with
      | zero => cases h3
      | succ n =>
        rw [List.replicate_succ, List.cons.injEq] at h3
        obtain ⟨rfl, rfl⟩ := h3
        simp only [generic, List.any_cons, Bool.or_eq_false_iff] at hn
        cases p with
        | any => simp at hn
        | type p =>
          rw [(hg t p).1 h1, ih h2 hn.2]
          rfl

theorem generic_types (ts : List T) : generic (ts.map .type) = false := by
  induction ts with
  | nil => rfl
  | cons t ts _ => simp [generic]

end Verif.Match
