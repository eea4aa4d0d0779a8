import Verif.Config.Build

/-
C126: builds with and without exceptions.
-/

namespace Verif.Config

open Extra (Ex Meta)

variable {C K X T : Type}

/-- C126, specification: the container answers truthfully which keys it has. -/
def Truthful (ct : Lens.Cont C K X) : Probe C K → Prop
  | .count f => ∀ c k, 0 < f c k ↔ ∃ x, ct.at? c k = some x
  | .size conv size => ∀ c k, (0 ≤ conv k ∧ conv k < (size c : Int)) ↔ ∃ x, ct.at? c k = some x

theorem maybeHasKey_eq {ct : Lens.Cont C K X} {p : Probe C K} (h : Truthful ct p) (b : Build) (c : C) (k : K) :
    maybeHasKey b p c k = (b.macros || (ct.at? c k).isSome) := by
  unfold maybeHasKey
  cases hb : b.macros with
  | true => simp
  | false =>
    cases p with
    | count f =>
      have := h c k
      rw [← Option.isSome_iff_exists] at this
      rw [Bool.eq_iff_iff, Bool.false_or, ← this]
      simp
    | size conv size =>
      have := h c k
      rw [← Option.isSome_iff_exists] at this
      rw [Bool.eq_iff_iff, Bool.false_or, ← this]
      simp

/-- C126: `at` does the same in all builds: reading gives the element if there is one, writing changes it if there is one
and there is a value to write.  Nothing throws, and the program does not end. -/
theorem C126_at {b : Build} (hb : b.ok = true) {ct : Lens.Cont C K X} {p : Probe C K} (h : Truthful ct p) (key : K)
    (whole : C) (part : Option X) :
    atGet b ct p key whole = .ret (ct.at? whole key) ∧
    ((∀ x v, ct.at? whole key = some x → part = some v → atSet b ct p key whole part = .ret (ct.store whole key v)) ∧
     ((ct.at? whole key = none ∨ part = none) → atSet b ct p key whole part = .ret whole)) := by
  have hk := maybeHasKey_eq h b whole key
  obtain ⟨ma, co⟩ := b
  unfold atGet atSet stdAt
  rw [hk]
  cases ma <;> cases co <;> cases part <;> cases hx : ct.at? whole key <;>
    simp_all [tryCatch, stdRaise, Out.bind, Build.ok]

/-- C126: so does `at_or`. -/
theorem C126_at_or {b : Build} (hb : b.ok = true) {ct : Lens.Cont C K X} {p : Probe C K} (h : Truthful ct p) (key : K)
    (dflt : X) (whole : C) (part : X) :
    atOrGet b ct p key dflt whole = .ret ((ct.at? whole key).getD dflt) ∧
    (∀ x, ct.at? whole key = some x → atOrSet b ct p key whole part = .ret (ct.store whole key part)) ∧
    (ct.at? whole key = none → atOrSet b ct p key whole part = .ret whole) := by
  have hk := maybeHasKey_eq h b whole key
  obtain ⟨ma, co⟩ := b
  unfold atOrGet atOrSet stdAt
  rw [hk]
  cases ma <;> cases co <;> cases hx : ct.at? whole key <;>
    simp_all [tryCatch, stdRaise, Out.bind, Build.ok]

/-- C126: containers with `insert(value)`: writing a value inserts it in all builds, whatever the key. -/
theorem C126_insert (b : Build) (insert : C → X → C) (whole : C) (v : X) :
    atInsert b insert whole (some v) = .ret (insert whole v) ∧ atInsert b insert whole none = .ret whole := by
  unfold atInsert tryCatch
  cases b.macros <;> exact ⟨rfl, rfl⟩

theorem vecConv_toNat {k : Int} {n : Nat} (hn : n ≤ 2 ^ 63) (hl : -2 ^ 63 ≤ k) (hu : k < 2 ^ 63) :
    (vecConv k).toNat < n ↔ 0 ≤ k ∧ k < n := by
  unfold vecConv
  omega

theorem truthful_vec (X : Type) (style : Lens.Style) : Truthful (vecCont X style) (vecProbe X) := by
  intro c k
  show _ ↔ ∃ x, c[(vecConv k).toNat]? = some x
  have : 0 ≤ vecConv k := by unfold vecConv; omega
  rw [← Option.isSome_iff_exists, Option.isSome_iff_ne_none, ne_eq, List.getElem?_eq_none_iff]
  show 0 ≤ vecConv k ∧ vecConv k < (c.length : Int) ↔ _
  omega

theorem truthful_map (K X : Type) [DecidableEq K] (style : Lens.Style) :
    Truthful (Lens.mapCont K X style) (mapProbe K X) := by
  intro c k
  show 0 < (if (c k).isSome then 1 else 0) ↔ ∃ x, c k = some x
  rw [← Option.isSome_iff_exists]
  split <;> simp_all

/-- C126: vectors with keys of a signed type: in all builds an element is found exactly for the keys from zero to the size,
not for negative keys. -/
theorem C126_vector {b : Build} (hb : b.ok = true) (style : Lens.Style) (l : List X) (hl : l.length ≤ 2 ^ 63) {k : Int}
    (h0 : -2 ^ 63 ≤ k) (h1 : k < 2 ^ 63) :
    (∀ n : Nat, k = n → atGet b (vecCont X style) (vecProbe X) k l = .ret l[n]?) ∧
    (k < 0 → atGet b (vecCont X style) (vecProbe X) k l = .ret none ∧
      ∀ v, atSet b (vecCont X style) (vecProbe X) k l (some v) = .ret l) := by
  have H := fun part => C126_at hb (truthful_vec X style) k l part
  constructor
  · intro n hn
    rw [(H none).1]
    show Out.ret l[(vecConv k).toNat]? = _
    have : (vecConv k).toNat = n := by unfold vecConv; omega
    rw [this]
  · intro hk
    have hn : (vecCont X style).at? l k = none := by
      show l[(vecConv k).toNat]? = none
      rw [List.getElem?_eq_none_iff]
      have := vecConv_toNat (n := l.length) hl h0 h1
      omega
    exact ⟨by rw [(H none).1, hn], fun v => (H (some v)).2.2 (.inl hn)⟩

/-- C126: maps, in all builds. -/
theorem C126_map [DecidableEq K] {b : Build} (hb : b.ok = true) (style : Lens.Style) (m : K → Option X) (k : K) (v : X) :
    atGet b (Lens.mapCont K X style) (mapProbe K X) k m = .ret (m k) ∧
    ∃ m', atSet b (Lens.mapCont K X style) (mapProbe K X) k m (some v) = .ret m' ∧ (∀ j, j ≠ k → m' j = m j) ∧
      m' k = (m k).map fun _ => v := by
  have H := C126_at hb (truthful_map K X style) k m (some v)
  refine ⟨H.1, ?_⟩
  cases hk : m k with
  | none => exact ⟨m, H.2.2 (.inl hk), fun _ _ => rfl, hk⟩
  | some x =>
    refine ⟨_, H.2.1 x v hk rfl, fun j hj => ?_, ?_⟩
    · simp [Lens.mapCont, hj]
    · simp [Lens.mapCont]

/-- C126: FALSE for containers whose `count` counts values, as that of the sequences of Qt does: without exceptions, an
element that is there is not found, and reading a key that is not there ends the program, or throws if the compiler has
exceptions. -/
theorem C126_count_false : ∃ (ct : Lens.Cont (List Nat) Nat Nat) (p : Probe (List Nat) Nat),
    (∀ c k, ct.at? c k = c[k]?) ∧ p = .count (fun c k => c.count k) ∧
    atGet ⟨true, true⟩ ct p 0 [5] = .ret (some 5) ∧ atGet ⟨false, false⟩ ct p 0 [5] = .ret none ∧
    atGet ⟨true, true⟩ ct p 5 [5] = .ret none ∧ atGet ⟨false, false⟩ ct p 5 [5] = .dead ∧
    atGet ⟨false, true⟩ ct p 5 [5] = .threw .outOfRange :=
  ⟨Lens.seqCont Nat .inPlace, _, fun _ _ => rfl, rfl, by decide +kernel, by decide +kernel, by decide +kernel,
    by decide +kernel, by decide +kernel⟩

theorem forEach_find (b : Build) {U : Type} (p : T × String → Bool) (g : T × String → U) (l : Meta T) :
    forEach (fun x => if p x then raise b (Ex.found (g x)) else .ret ()) l =
      match l.find? p with
      | some x => raise b (.found (g x))
      | none => .ret () := by
  induction l with
  | nil => rfl
  | cons x xs ih =>
    rw [forEach, List.find?_cons]
    cases hp : p x with
    | true =>
      simp only [if_true, raise]
      cases b.macros <;> rfl
    | false => simpa [hp, Out.bind] using ih

/-- C126: with exceptions, the names of enumerators work: the first enumerator that fits, or `std::runtime_error`. -/
theorem C126_enum [DecidableEq T] {b : Build} (hb : b.macros = true) (l : Meta T) (v : T) (s : String) :
    toString b l v = (match l.find? (fun x => x.1 = v) with
      | some x => .ret x.2
      | none => .threw (.runtime "unknown enum value")) ∧
    toEnum b l s = (match l.find? (fun x => x.2 = s) with
      | some x => .ret x.1
      | none => .threw (.runtime "unknown enum name")) := by
  constructor
  · unfold toString search
    rw [forEach_find]
    cases l.find? (fun x => decide (x.1 = v)) <;> simp [tryCatch, raise, Out.bind, hb]
  · unfold toEnum search
    rw [forEach_find]
    cases l.find? (fun x => decide (x.2 = s)) <;> simp [tryCatch, raise, Out.bind, hb]

/-- C126: FALSE without exceptions: every call of `to_string` and `to_enum` ends the program, also for enumerators and
names that are there.  So does saving or loading an enumeration. -/
theorem C126_enum_false [DecidableEq T] {b : Build} (hb : b.macros = false) (l : Meta T) (v : T) (s : String) :
    toString b l v = .dead ∧ toEnum b l s = .dead := by
  constructor
  · unfold toString search
    rw [forEach_find]
    cases l.find? (fun x => decide (x.1 = v)) <;> simp [tryCatch, raise, Out.bind, hb]
  · unfold toEnum search
    rw [forEach_find]
    cases l.find? (fun x => decide (x.2 = s)) <;> simp [tryCatch, raise, Out.bind, hb]

/-- C126: a node whose transducer passes something on for the first input begins with the last of it, in all builds. -/
theorem C126_xform (b : Build) (dflt : Option T) (l : List T) (v : T) : initialValue b dflt (l ++ [v]) = .ret v := by
  simp [initialValue, lastValue, tryCatch]

/-- C126: when it passes nothing on, the node begins with the default value, or `no_value_error` is thrown if there is
none. -/
theorem C126_xform_none {b : Build} (hb : b.macros = true) (dflt : Option T) :
    initialValue b dflt [] = (match dflt with
      | some v => .ret v
      | none => .threw .error) := by
  cases dflt <;> simp [initialValue, lastValue, tryCatch, raise, hb]

/-- C126: FALSE without exceptions: making a node whose transducer passes nothing on for the first input ends the program,
also when there is a default value. -/
theorem C126_xform_false {b : Build} (hb : b.macros = false) (dflt : Option T) : initialValue b dflt [] = .dead := by
  simp [initialValue, lastValue, tryCatch, raise, hb]

/-- C126: in the tree debugger, going to a cursor that is there does the same in all builds. -/
theorem C126_goto {A M : Type} (b : Build) (m : Tree.Model A M) (c : Tree.Cursor) {r : Option A × M}
    (h : m.lookup c = some r) : goto_ b m c = .ret { m with cursor := c } := by
  simp [goto_, check, lookup, h, tryCatch, Out.bind]

/-- C126: with exceptions, going to one that is not there does nothing. -/
theorem C126_goto_missing {A M : Type} {b : Build} (hb : b.macros = true) (m : Tree.Model A M) (c : Tree.Cursor)
    (h : m.lookup c = none) : goto_ b m c = .ret m := by
  simp [goto_, check, lookup, h, tryCatch, Out.bind, raise, hb]

/-- C126: FALSE without exceptions: it ends the program. -/
theorem C126_goto_false {A M : Type} {b : Build} (hb : b.macros = false) (m : Tree.Model A M) (c : Tree.Cursor)
    (h : m.lookup c = none) : goto_ b m c = .dead := by
  simp [goto_, check, lookup, h, tryCatch, Out.bind, raise, hb]

/-- C126: which build it is: what the user says counts, and otherwise what the compiler has. -/
theorem C126_configure (use no compiler : Bool) :
    ((Build.configure use no compiler).macros = true ↔ no = false ∧ (use = true ∨ compiler = true)) ∧
    (use = false → (Build.configure use no compiler).ok = true) := by
  cases use <;> cases no <;> cases compiler <;> decide

-- the builds there are
example : (Build.configure false false true, Build.configure false false false, Build.configure false true true) =
    (⟨true, true⟩, ⟨false, false⟩, ⟨false, true⟩) := by decide

-- a vector, with a key that is there, one beyond the end and a negative one
example : ([0, 2, 7, -1].map fun k => atGet ⟨false, false⟩ (vecCont Nat .persistent) (vecProbe Nat) k [10, 20, 30]) =
    [.ret (some 10), .ret (some 30), .ret none, .ret none] := by decide +kernel

example : ([0, 2, 7, -1].map fun k => atSet ⟨true, true⟩ (vecCont Nat .inPlace) (vecProbe Nat) k [10, 20, 30] (some 1)) =
    [.ret [1, 20, 30], .ret [10, 20, 1], .ret [10, 20, 30], .ret [10, 20, 30]] := by decide +kernel

-- without the question first, the missing key would end the program
example : (stdAt ⟨false, false⟩ (vecCont Nat .persistent) [10] 1, stdAt ⟨true, true⟩ (vecCont Nat .persistent) [10] 1) =
    (.dead, .threw .outOfRange) := by decide +kernel

example : (toString ⟨true, true⟩ [(0, "red"), (1, "blue")] 1, toString ⟨false, false⟩ [(0, "red"), (1, "blue")] 1) =
    (.ret "blue", .dead) := by decide +kernel

example : ((Tree.Model.start 3 : Tree.Model Nat Nat).lookup [⟨0, 0⟩], (Tree.Model.start 3 : Tree.Model Nat Nat).lookup []) =
    (none, some (none, 3)) := rfl

end Verif.Config
