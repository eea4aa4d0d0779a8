import Verif.Deps.Model

/-!
Properties C58 and C59: dependency bags.
-/

namespace Verif.Deps

set_option linter.unusedSectionVars false

variable {K T V S : Type} [DecidableEq K] [DecidableEq T]

/-! ### Specification -/

/-- Bag `b` has dependency `k`, with this specification and storage. -/
def Has (b : Bag K T V S) (k : K) (s : Shape T) (x : Stored V S) : Prop :=
  ∃ e ∈ b, e.key = k ∧ e.shape = s ∧ e.stored = x

/-- A specification without functions. -/
def Shape.plain : Shape T → Bool
  | .val _ => true
  | .ref _ => true
  | .opt s => s.plain
  | .fn _ => false

/-- A chain of conversions. -/
def chain : List (Specs K T) → Bag K T V S → S → Option (Bag K T V S × S)
  | [], b, st => some (b, st)
  | ss :: l, b, st => (convert ss b).bind fun f => chain l (f st).1 (f st).2

/-- The key of a specification: the type itself for values and references, what `key` says for those that
have it, also inside of `opt` and `fn`. -/
inductive KeyIs : Spec K T → K → Prop where
  | val (k : K) (t : T) : KeyIs (.val k t) k
  | ref (k : K) (t : T) : KeyIs (.ref k t) k
  | key (k : K) (s : Spec K T) : KeyIs (.key k s) k
  | opt {s : Spec K T} {k : K} : KeyIs s k → KeyIs (.opt s) k
  | fn {s : Spec K T} {k : K} : KeyIs s k → KeyIs (.fn s) k

/-! ### Lemmas -/

theorem find_mem {k : K} {b : Bag K T V S} {e : Entry K T V S} (h : find k b = some e) :
    e ∈ b ∧ e.key = k := by
  refine ⟨List.mem_of_find?_eq_some h, ?_⟩
  have := List.find?_some h
  simpa using this

theorem find_none {k : K} {b : Bag K T V S} : find k b = none ↔ ∀ e ∈ b, e.key ≠ k := by
  simp [find, List.find?_eq_none]

theorem find_of_mem {b : Bag K T V S} (hn : (b.map (·.key)).Nodup) {e : Entry K T V S} (h : e ∈ b) :
    find e.key b = some e := by
  induction b with
  | nil => cases h
  | cons x b ih =>
    simp only [List.map_cons, List.nodup_cons] at hn
    simp only [find, List.find?_cons]
    rcases List.mem_cons.1 h with rfl | h
    · simp
    · have : x.key ≠ e.key := fun he => hn.1 (he ▸ List.mem_map.2 ⟨e, h, rfl⟩)
      simp only [this, decide_false]
      exact ih hn.2 h

/-- The dependencies that a conversion makes. -/
theorem pickAll_mem {ss : Specs K T} {b : Bag K T V S} {F : S → Bag K T V S × S} (h : pickAll ss b = some F)
    (st : S) : (F st).1.specs = ss ∧
    ∀ e ∈ (F st).1, ∃ f st0, pick e.key e.shape b = some f ∧ e.stored = (f st0).1 := by
  induction ss generalizing F st with
  | nil => cases h; exact ⟨rfl, nofun⟩
  | cons y ss ih =>
    obtain ⟨k, s⟩ := y
    simp only [pickAll, Option.bind_eq_some_iff, Option.map_eq_some_iff] at h
    obtain ⟨f, h1, g, h2, rfl⟩ := h
    obtain ⟨i1, i2⟩ := ih h2 (f st).2
    refine ⟨?_, fun e he => ?_⟩
    · simp only [Bag.specs] at i1
      simp [Bag.specs, i1]
    · rcases List.mem_cons.1 he with rfl | he
      · exact ⟨f, st, h1, rfl⟩
      · exact i2 e he

theorem specs_keys (b : Bag K T V S) : b.map (·.key) = b.specs.map (·.1) := by
  simp [Bag.specs]

/-- … found with their keys. -/
theorem pickAll_find {ss : Specs K T} {b : Bag K T V S} {F : S → Bag K T V S × S} (h : pickAll ss b = some F)
    (hn : (ss.map (·.1)).Nodup) {k : K} {s : Shape T} (hk : (k, s) ∈ ss) (st : S) :
    ∃ f st0, pick k s b = some f ∧ find k (F st).1 = some ⟨k, s, (f st0).1⟩ := by
  obtain ⟨h1, h2⟩ := pickAll_mem h st
  rw [← h1] at hk
  simp only [Bag.specs, List.mem_map, Prod.mk.injEq] at hk
  obtain ⟨e, h3, rfl, rfl⟩ := hk
  obtain ⟨f, st0, h4, h5⟩ := h2 e h3
  refine ⟨f, st0, h4, ?_⟩
  rw [find_of_mem (by rw [specs_keys, h1]; exact hn) h3]
  cases e; cases h5; rfl

theorem convert_pick {ss : Specs K T} {b : Bag K T V S} {F : S → Bag K T V S × S}
    (h : convert ss b = some F) : pickAll ss b = some F := by
  unfold convert at h
  split at h
  · exact h
  · cases h

/-- The conversions of storages, except the one that calls a function, do not change what `get` does. -/
theorem extract_get {s s' : Shape T} {f : Stored V S → S → Stored V S × S} (h : extract s s' = some f)
    (hx : ∀ t, ¬ (s = .ref t ∧ s' = .fn (.ref t))) {x : Stored V S} (hf : x.fits s') (st0 st : S) :
    getS s (f x st0).1 st = getS s' x st ∧ (f x st0).2 = st0 := by
  unfold extract at h
  split at h
  · rename_i t t'
    split at h
    · rename_i ht; subst ht; exact absurd ⟨rfl, rfl⟩ (hx t)
    · cases h
  · rename_i s s'
    split at h
    · rename_i hs; cases h; subst hs; exact ⟨rfl, rfl⟩
    · split at h
      · rename_i hs; cases h; subst hs; exact ⟨rfl, rfl⟩
      · cases h
  · rename_i s s'
    split at h
    · rename_i hs; cases h; subst hs; exact ⟨rfl, rfl⟩
    · split at h
      · rename_i hs
        cases h
        subst hs
        refine ⟨?_, rfl⟩
        cases x with
        | fn f after => simp [getS]
        | null => rfl
        | val v => cases s' <;> cases hf
        | ref a => cases s' <;> cases hf
        | none => cases s' <;> cases hf
        | some x => cases s' <;> cases hf
      · cases h
  · split at h
    · rename_i hs; cases h; subst hs; exact ⟨rfl, rfl⟩
    · cases h

theorem extract_fits {s s' : Shape T} {f : Stored V S → S → Stored V S × S} (h : extract s s' = some f)
    {x : Stored V S} (hf : x.fits s') (st0 : S) :
    (f x st0).1.fits s ∨ (∃ t, s = .ref t ∧ s' = .fn (.ref t) ∧ x = .null) := by
  unfold extract at h
  split at h
  · rename_i t t'
    split at h
    · rename_i ht
      subst ht
      cases h
      cases x with
      | fn f after => exact .inl (hf st0)
      | null => exact .inr ⟨_, rfl, rfl, rfl⟩
      | val v => cases hf
      | ref a => cases hf
      | none => cases hf
      | some x => cases hf
    · cases h
  · rename_i s s'
    left
    split at h
    · rename_i hs; cases h; subst hs; exact hf
    · split at h
      · rename_i hs; cases h; subst hs
        exact hf
      · cases h
  · rename_i s s'
    left
    split at h
    · rename_i hs; cases h; subst hs; exact hf
    · split at h
      · rename_i hs
        cases h
        subst hs
        cases x with
        | fn f after => exact fun st => hf st
        | null => trivial
        | val v => cases hf
        | ref a => cases hf
        | none => cases hf
        | some x => cases hf
      · cases h
  · left
    split at h
    · rename_i hs; cases h; subst hs; exact hf
    · cases h

/-! ### C58 -/

/-- C58: `get` after `with` does what the specification says about the storage that was passed for this
key. -/
theorem C58_with {ss : List (Spec K T)} {xs : List (Stored V S)} {b : Bag K T V S}
    (h : «with» ss xs = some b) (hn : (ss.map Spec.keyOf).Nodup) {n : Nat} {s : Spec K T} {x : Stored V S}
    (hs : ss[n]? = some s) (hx : xs[n]? = some x) (st : S) :
    get s.keyOf b st = some (getS s.shape x st) ∧ has s.keyOf b = some (hasS s.shape x) := by
  have key : b.map (·.key) = ss.map Spec.keyOf ∧ (⟨s.keyOf, s.shape, x⟩ : Entry K T V S) ∈ b := by
    induction ss generalizing xs b n with
    | nil => simp at hs
    | cons y ss ih =>
      cases xs with
      | nil => simp at hx
      | cons z xs =>
        simp only [«with», Option.map_eq_some_iff] at h
        obtain ⟨b', h1, rfl⟩ := h
        have hn' := hn
        simp only [List.map_cons, List.nodup_cons] at hn
        have hkeys : ∀ {ss : List (Spec K T)} {xs : List (Stored V S)} {b : Bag K T V S},
            «with» ss xs = some b → b.map (·.key) = ss.map Spec.keyOf := by
          intro ss
          induction ss with
          | nil => intro xs b h; cases xs <;> cases h; rfl
          | cons y ss ih =>
            intro xs b h
            cases xs with
            | nil => cases h
            | cons z xs =>
              simp only [«with», Option.map_eq_some_iff] at h
              obtain ⟨b', h1, rfl⟩ := h
              simp [ih h1]
        refine ⟨by simp [hkeys h1], ?_⟩
        cases n with
        | zero =>
          simp only [List.getElem?_cons_zero, Option.some.injEq] at hs hx
          subst hs hx
          exact List.mem_cons_self
        | succ n =>
          simp only [List.getElem?_cons_succ] at hs hx
          exact List.mem_cons_of_mem _ (ih h1 hn.2 hs hx).2
  have hf := find_of_mem (by rw [key.1]; exact hn) key.2
  simp only at hf
  unfold get has
  rw [hf]
  exact ⟨rfl, rfl⟩

/-- C58: the key by which `get` finds it: the outermost `key`, else the type. -/
theorem C58_key {ss : List (Spec K T)} {xs : List (Stored V S)} {b : Bag K T V S}
    (h : «with» ss xs = some b) (hn : ∀ (i j : Nat) s s' k, ss[i]? = some s → ss[j]? = some s' → KeyIs s k →
      KeyIs s' k → i = j) {n : Nat} {s : Spec K T} {x : Stored V S} {k : K}
    (hs : ss[n]? = some s) (hx : xs[n]? = some x) (hk : KeyIs s k) (st : S) :
    get k b st = some (getS s.shape x st) ∧ has k b = some (hasS s.shape x) := by
  have hkey : ∀ (s : Spec K T) (k : K), KeyIs s k ↔ s.keyOf = k := by
    intro s
    induction s with
    | val k' t => intro k; exact ⟨fun h => by cases h; rfl, fun h => by cases h; exact .val _ _⟩
    | ref k' t => intro k; exact ⟨fun h => by cases h; rfl, fun h => by cases h; exact .ref _ _⟩
    | opt s ih => intro k; exact ⟨fun h => by cases h with | opt h => exact (ih k).1 h, fun h => .opt ((ih k).2 h)⟩
    | fn s ih => intro k; exact ⟨fun h => by cases h with | fn h => exact (ih k).1 h, fun h => .fn ((ih k).2 h)⟩
    | key k' s _ => intro k; exact ⟨fun h => by cases h; rfl, fun h => by cases h; exact .key _ _⟩
  have hnd : (ss.map Spec.keyOf).Nodup := by
    rw [List.nodup_iff_pairwise_ne, List.pairwise_iff_getElem]
    intro i j hi hj hij he
    simp only [List.length_map] at hi hj
    have := hn i j ss[i] ss[j] ss[i].keyOf (List.getElem?_eq_getElem hi) (List.getElem?_eq_getElem hj)
      ((hkey _ _).2 rfl) ((hkey _ _).2 (by simpa using he.symm))
    omega
  rw [← (hkey s k).1 hk]
  exact C58_with h hnd hs hx st

/-- C58: for values that is the value; for references the reference to the same object; an optional one
that is present the same, and one that is not throws.  The program's state does not change, so that nothing
is called. -/
theorem C58_get {b : Bag K T V S} (hb : b.valid) {k : K} {s : Shape T} {x : Stored V S} (h : Has b k s x)
    (st : S) :
    (∀ t v, s = .val t → x = .val v → get k b st = some (.value v, st) ∧ has k b = some true) ∧
    (∀ t a, s = .ref t → x = .ref a → get k b st = some (.reference a, st) ∧ has k b = some true) ∧
    (∀ s', s = .opt s' → x = .none → get k b st = some (.missing, st) ∧ has k b = some false) ∧
    (∀ t v, s = .opt (.val t) → x = .some (.val v) → get k b st = some (.value v, st) ∧ has k b = some true) ∧
    (∀ t a, s = .opt (.ref t) → x = .some (.ref a) → get k b st = some (.reference a, st) ∧
      has k b = some true) := by
  obtain ⟨e, he, rfl, rfl, rfl⟩ := h
  have hf := find_of_mem hb.1 he
  unfold get has
  rw [hf]
  simp only [Option.map_some]
  refine ⟨?_, ?_, ?_, ?_, ?_⟩
  · intro t v h1 h2; rw [h1, h2]; exact ⟨rfl, rfl⟩
  · intro t v h1 h2; rw [h1, h2]; exact ⟨rfl, rfl⟩
  · intro t h1 h2; rw [h1, h2]; exact ⟨rfl, rfl⟩
  · intro t v h1 h2; rw [h1, h2]; exact ⟨rfl, rfl⟩
  · intro t v h1 h2; rw [h1, h2]; exact ⟨rfl, rfl⟩

/-- C58: a lazy dependency calls the function at each `get`: each returns what the function returns in
the state at that time, and the state is as the function leaves it. -/
theorem C58_lazy {b : Bag K T V S} (hb : b.valid) {k : K} {s : Shape T} {f : S → Stored V S} {after : S → S}
    (h : Has b k (.fn s) (.fn f after)) (st : S) :
    get k b st = some (getS s (f st) (after st)) ∧
    (∀ t v, s = .val t → f st = .val v → get k b st = some (.value v, after st)) ∧
    (∀ t a, s = .ref t → f st = .ref a → get k b st = some (.reference a, after st)) := by
  obtain ⟨e, he, rfl, hs, hx⟩ := h
  have hf := find_of_mem hb.1 he
  have h1 : get e.key b st = some (getS s (f st) (after st)) := by
    unfold get; rw [hf]; simp only [Option.map_some]; rw [hs, hx]; rfl
  refine ⟨h1, ?_, ?_⟩
  · rintro t v rfl h2; rw [h1, h2]; rfl
  · rintro t v rfl h2; rw [h1, h2]; rfl

/-- C58: converting to another bag keeps each shared dependency: `get` does the same on both, in every state.
The exception is a lazy reference that becomes a reference: then the function has been called at the
conversion, and `get` returns the reference that it has returned. -/
theorem C58_convert {b : Bag K T V S} (hb : b.valid) {ss : Specs K T} (hn : (ss.map (·.1)).Nodup)
    {F : S → Bag K T V S × S} (h : convert ss b = some F) {k : K} {s s' : Shape T} (hk : (k, s) ∈ ss)
    {x : Stored V S} (hx : Has b k s' x) (st st1 : S) :
    ((∀ t, ¬ (s = .ref t ∧ s' = .fn (.ref t))) → get k (F st).1 st1 = get k b st1) ∧
    (∀ t f after, s = .ref t → s' = .fn (.ref t) → x = .fn f after →
      ∃ st0 a, f st0 = .ref a ∧ get k (F st).1 st1 = some (.reference a, st1)) ∧
    (s'.required = true → x ≠ .null → has k (F st).1 = some true) := by
  obtain ⟨e, he, rfl, rfl, rfl⟩ := hx
  obtain ⟨p, st0, h1, h2⟩ := pickAll_find (convert_pick h) hn hk st
  have hf := find_of_mem hb.1 he
  simp only [pick, hf, Option.map_eq_some_iff] at h1
  obtain ⟨f, h3, rfl⟩ := h1
  refine ⟨fun hne => ?_, ?_, ?_⟩
  · unfold get
    rw [h2, hf]
    simp only [Option.map_some]
    rw [(extract_get h3 hne (hb.2 e he) st0 st1).1]
  · rintro t g after rfl hs hx
    have hfit := hb.2 e he
    rw [hs, hx] at hfit
    have h4 := hfit st0
    rw [hs] at h3
    simp only [extract, if_true, Option.some.injEq] at h3
    subst h3
    refine ⟨st0, ?_⟩
    cases hg : g st0 with
    | ref a =>
      refine ⟨a, rfl, ?_⟩
      unfold get
      rw [h2, hx]
      simp only [Option.map_some, hg]
      rfl
    | _ => rw [hg] at h4; cases h4
  · intro hr hx
    unfold has
    rw [h2]
    simp only [Option.map_some]
    have hreq : ∀ (s : Shape T) (x : Stored V S), s.required = true → hasS s x = true := by
      intro s
      induction s with
      | val t => intro x _; rfl
      | ref t => intro x _; rfl
      | opt s _ => intro x h; cases h
      | fn s ih => intro x h; exact ih x h
    have hsh := hb.2 e he
    revert h3 hx hr hsh
    generalize e.shape = s'
    generalize e.stored = x
    intro h3 hr hx hsh
    unfold extract at h3
    split at h3
    · split at h3
      · cases h3; rfl
      · cases h3
    · split at h3
      · rename_i hs; subst hs; cases hr
      · split at h3
        · cases h3; rfl
        · cases h3
    · rename_i s1 s2
      split at h3
      · rename_i hs; subst hs; cases hr
      · split at h3
        · cases h3
          cases x with
          | fn f after => rfl
          | null => exact absurd rfl hx
          | _ => cases hsh
        · cases h3
    · split at h3
      · rename_i hs
        cases h3; subst hs
        rw [hreq _ _ hr]
      · cases h3

/-- C58: a conversion compiles only if what is required in the new bag is required in the old one (so that it
cannot be missing) … -/
theorem C58_required {b : Bag K T V S} {ss : Specs K T} {F : S → Bag K T V S × S}
    (h : convert ss b = some F) {k : K} {s : Shape T} (hk : (k, s) ∈ ss) (hr : s.required = true) :
    ∃ s' x, Has b k s' x ∧ s'.required = true := by
  unfold convert at h
  split at h
  · rename_i ha
    rw [List.all_eq_true] at ha
    have := ha k (List.mem_map.2 ⟨(k, s), List.mem_filter.2 ⟨hk, hr⟩, rfl⟩)
    rw [decide_eq_true_eq] at this
    simp only [required, List.mem_map, List.mem_filter, Bag.specs] at this
    obtain ⟨_, ⟨⟨e, he, rfl⟩, h1⟩, h2⟩ := this
    exact ⟨e.shape, e.stored, ⟨e, he, h2, rfl, rfl⟩, h1⟩
  · cases h

theorem extract_same (s : Shape T) :
    extract s s = some (fun (x : Stored V S) (st : S) => (x, st)) := by
  cases s with
  | val t => simp [extract]
  | ref t => simp [extract]
  | opt s => simp [extract]
  | fn s => cases s <;> simp [extract]

/-- … and it does compile if the new bag has only specifications of the old one, in any order, or optional
ones that are not in the old one. -/
theorem C58_compiles {b : Bag K T V S} (hb : b.valid) {ss : Specs K T}
    (h : ∀ k s, (k, s) ∈ ss → (∃ x, Has b k s x) ∨ (s.required = false ∧ ∀ e ∈ b, e.key ≠ k)) :
    ∃ F, convert ss b = some F := by
  have hpick : ∀ l : Specs K T, (∀ y ∈ l, y ∈ ss) → ∃ F, pickAll l b = some F := by
    intro l
    induction l with
    | nil => intro _; exact ⟨_, rfl⟩
    | cons y l ih =>
      obtain ⟨k, s⟩ := y
      intro hl
      obtain ⟨F, hF⟩ := ih fun y hy => hl y (List.mem_cons_of_mem _ hy)
      have : ∃ f, pick k s b = some f := by
        rcases h k s (hl _ List.mem_cons_self) with ⟨x, e, he, rfl, rfl, rfl⟩ | ⟨h1, h2⟩
        · unfold pick; rw [find_of_mem hb.1 he]; simp only [extract_same]; exact ⟨_, rfl⟩
        · unfold pick; rw [find_none.2 h2]; simp only [h1]; exact ⟨_, rfl⟩
      obtain ⟨f, hf⟩ := this
      exact ⟨_, by simp only [pickAll]; rw [hf, hF]; rfl⟩
  obtain ⟨F, hF⟩ := hpick ss fun _ h => h
  refine ⟨F, ?_⟩
  unfold convert
  rw [if_pos, hF]
  rw [List.all_eq_true]
  intro k hk
  simp only [required, List.mem_map, List.mem_filter] at hk
  obtain ⟨⟨k', s⟩, ⟨h1, h2⟩, rfl⟩ := hk
  rw [decide_eq_true_eq]
  simp only [required, List.mem_map, List.mem_filter, Bag.specs]
  rcases h k' s h1 with ⟨x, e, he, rfl, rfl, rfl⟩ | ⟨h3, _⟩
  · exact ⟨_, ⟨⟨e, he, rfl⟩, h2⟩, rfl⟩
  · rw [h3] at h2; cases h2

/-- C58: what is not in the source is absent: only an optional dependency can be, then `has` is false and
`get` throws and changes nothing. -/
theorem C58_absent {b : Bag K T V S} {ss : Specs K T} (hn : (ss.map (·.1)).Nodup)
    {F : S → Bag K T V S × S} (h : convert ss b = some F) {k : K} {s : Shape T} (hk : (k, s) ∈ ss)
    (hx : ∀ e ∈ b, e.key ≠ k) (st st1 : S) :
    s.required = false ∧ has k (F st).1 = some false ∧
    (get k (F st).1 st1 = some (.missing, st1) ∨ (∃ s', s = .fn s') ∧ get k (F st).1 st1 = some (.badCall, st1)) := by
  obtain ⟨p, st0, h1, h2⟩ := pickAll_find (convert_pick h) hn hk st
  simp only [pick, find_none.2 hx] at h1
  split at h1
  · cases h1
  rename_i hr
  cases h1
  have hr' : s.required = false := by simpa using hr
  unfold has get
  rw [h2]
  simp only [Option.map_some, Option.some.injEq]
  refine ⟨hr', ?_, ?_⟩
  · have : ∀ (s : Shape T), s.required = false → hasS s (Stored.null : Stored V S) = false := by
      intro s
      induction s with
      | val t => intro h; cases h
      | ref t => intro h; cases h
      | opt s _ => intro _; rfl
      | fn s ih => intro h; exact ih h
    cases s with
    | val t => cases hr'
    | ref t => cases hr'
    | opt s => rfl
    | fn s => exact this s hr'
  · cases s with
    | val t => cases hr'
    | ref t => cases hr'
    | opt s => exact .inl rfl
    | fn s => exact .inr ⟨⟨s, rfl⟩, rfl⟩

theorem pickAll_valid {b : Bag K T V S} (hb : b.valid) {ss : Specs K T} (hn : (ss.map (·.1)).Nodup)
    {F : S → Bag K T V S × S} (h : pickAll ss b = some F)
    (hnull : ∀ k t x, Has b k (.fn (.ref t)) x → x ≠ .null) (st : S) : (F st).1.valid := by
  obtain ⟨h1, h2⟩ := pickAll_mem h st
  refine ⟨by rw [specs_keys, h1]; exact hn, fun e he => ?_⟩
  obtain ⟨f, st0, h3, h4⟩ := h2 e he
  rw [h4]
  unfold pick at h3
  split at h3
  · rename_i e' he'
    simp only [Option.map_eq_some_iff] at h3
    obtain ⟨g, h5, rfl⟩ := h3
    obtain ⟨m1, m2⟩ := find_mem he'
    rcases extract_fits h5 (hb.2 e' m1) st0 with h | ⟨t, _, h6, h7⟩
    · exact h
    · exact absurd h7 (hnull e'.key t e'.stored ⟨e', m1, rfl, h6, rfl⟩)
  · split at h3
    · cases h3
    · rename_i hr
      cases h3
      generalize e.shape = s at *
      cases s with
      | val t => exact absurd rfl hr
      | ref t => exact absurd rfl hr
      | opt s => trivial
      | fn s => trivial

/-- C58: conversions that call no function change nothing in the program. -/
theorem C58_silent {b : Bag K T V S} (hb : b.valid) {ss : Specs K T} {F : S → Bag K T V S × S}
    (h : convert ss b = some F)
    (hne : ∀ k t s' x, (k, .ref t) ∈ ss → Has b k s' x → s' ≠ .fn (.ref t)) (st : S) : (F st).2 = st := by
  have h' := convert_pick h
  clear h
  induction ss generalizing F st with
  | nil => cases h'; rfl
  | cons y ss ih =>
    obtain ⟨k, s⟩ := y
    simp only [pickAll, Option.bind_eq_some_iff, Option.map_eq_some_iff] at h'
    obtain ⟨f, h1, g, h2, rfl⟩ := h'
    have hf : (f st).2 = st := by
      unfold pick at h1
      split at h1
      · rename_i e he
        simp only [Option.map_eq_some_iff] at h1
        obtain ⟨g, h5, rfl⟩ := h1
        obtain ⟨m1, m2⟩ := find_mem he
        refine (extract_get h5 ?_ (hb.2 e m1) st st).2
        rintro t ⟨rfl, hs⟩
        exact hne k t e.shape e.stored List.mem_cons_self ⟨e, m1, m2, rfl, rfl⟩ hs
      · split at h1
        · cases h1
        · cases h1; rfl
    have := ih (fun k t s' x hk => hne k t s' x (List.mem_cons_of_mem _ hk)) (f st).2 h2
    show (g (f st).2).2 = st
    rw [this, hf]

theorem extract_plain {s s' : Shape T} {f : Stored V S → S → Stored V S × S} (h : extract s s' = some f)
    (hp : s'.plain = true) : s.plain = true ∧ ∀ t, ¬ (s = .ref t ∧ s' = .fn (.ref t)) := by
  unfold extract at h
  split at h
  · cases hp
  · split at h
    · rename_i hs; subst hs; exact ⟨hp, fun t h => by cases h.1⟩
    · split at h
      · rename_i hs; subst hs; exact ⟨hp, fun t h => by cases h.1⟩
      · cases h
  · cases hp
  · split at h
    · rename_i hs; subst hs; exact ⟨hp, fun t h => by rw [h.2] at hp; cases hp⟩
    · cases h

/-- C58: through any chain of conversions that all have the dependency, `get` does the same in the end as on
the first bag: values stay the same and references stay references to the same object. -/
theorem C58_chain {l : List (Specs K T)} {b b' : Bag K T V S} (hb : b.valid)
    (hnull : ∀ k t x, Has b k (.fn (.ref t)) x → x ≠ .null)
    (hn : ∀ ss ∈ l, (ss.map (·.1)).Nodup ∧ ∀ k t, (k, .fn (.ref t)) ∉ ss) {st st' : S}
    (h : chain l b st = some (b', st'))
    {k : K} (hk : ∀ ss ∈ l, ∃ s, (k, s) ∈ ss) {s : Shape T} {x : Stored V S} (hx : Has b k s x)
    (hp : s.plain = true) (st1 : S) : get k b' st1 = get k b st1 := by
  induction l generalizing b st s x with
  | nil => cases h; rfl
  | cons ss l ih =>
    simp only [chain, Option.bind_eq_some_iff] at h
    obtain ⟨F, h1, h2⟩ := h
    obtain ⟨n1, n2⟩ := hn ss List.mem_cons_self
    obtain ⟨s1, hs1⟩ := hk ss List.mem_cons_self
    have hb1 := pickAll_valid hb n1 (convert_pick h1) hnull st
    have hsp := (pickAll_mem (convert_pick h1) st).1
    obtain ⟨p, st0, h3, h4⟩ := pickAll_find (convert_pick h1) n1 hs1 st
    have hx' := hx
    obtain ⟨e, he, rfl, rfl, rfl⟩ := hx'
    have hf := find_of_mem hb.1 he
    simp only [pick, hf, Option.map_eq_some_iff] at h3
    obtain ⟨f, h5, rfl⟩ := h3
    obtain ⟨p1, p2⟩ := extract_plain h5 hp
    have key := ih hb1 ?_ (fun ss hs => hn ss (List.mem_cons_of_mem _ hs)) h2
      (fun ss hs => hk ss (List.mem_cons_of_mem _ hs))
      (⟨_, (find_mem h4).1, (find_mem h4).2, rfl, rfl⟩) p1
    · rw [key, (C58_convert hb n1 h1 hs1 hx st st1).1 p2]
    · rintro k' t x' ⟨e', m1, rfl, m2, rfl⟩
      exfalso
      refine n2 e'.key t ?_
      rw [← hsp]
      exact List.mem_map.2 ⟨e', m1, by rw [m2]⟩

/-! ### C59 -/

theorem union_specs (a b : Bag K T V S) : unionSpecs a.specs b.specs = (union a b).specs := by
  simp only [unionSpecs, union, Bag.specs, List.map_append, List.filter_map]
  congr 2
  apply List.filter_congr
  intro e _
  simp [find, List.find?_map, Function.comp_def]

theorem union_nodup {a b : Bag K T V S} (ha : a.valid) (hb : b.valid) :
    ((union a b).map (·.key)).Nodup := by
  unfold union
  rw [List.map_append, List.nodup_append]
  refine ⟨hb.1, ha.1.sublist (List.filter_sublist.map _), ?_⟩
  intro x hx y hy h
  subst h
  rw [List.mem_map] at hx hy
  obtain ⟨e, h1, rfl⟩ := hx
  obtain ⟨e', h2, h3⟩ := hy
  rw [List.mem_filter] at h2
  have := h2.2
  rw [Option.isNone_iff_eq_none, find_none] at this
  exact this e h1 h3.symm

theorem union_find (a b : Bag K T V S) (k : K) :
    find k (union a b) = if (∃ e ∈ b, e.key = k) then find k b else find k a := by
  unfold union find
  rw [List.find?_append]
  split
  · rename_i h
    obtain ⟨e, he, hk⟩ := h
    cases hf : List.find? (fun e => decide (e.key = k)) b with
    | some x => rfl
    | none => exact absurd hk (find_none.1 hf e he)
  · rename_i h
    have hn : List.find? (fun e => decide (e.key = k)) b = none := find_none.2 fun e he hk => h ⟨e, he, hk⟩
    rw [hn, Option.none_or, List.find?_filter]
    congr 1
    funext e
    by_cases hk : e.key = k
    · subst hk; rw [hn]; simp
    · simp [hk]

/-- `merge` compiles, and it makes the union; it calls nothing. -/
theorem merge_union {a b : Bag K T V S} (ha : a.valid) (hb : b.valid) :
    ∃ F, merge a b = some F ∧ ∀ st, F st = (union a b, st) := by
  have key : ∀ l : Bag K T V S, (∀ e ∈ l, e ∈ union a b) →
      ∃ F, pickAll l.specs (union a b) = some F ∧ ∀ st, F st = (l, st) := by
    intro l
    induction l with
    | nil => intro _; exact ⟨_, rfl, fun _ => rfl⟩
    | cons e l ih =>
      intro hl
      obtain ⟨F, h1, h2⟩ := ih fun x hx => hl x (List.mem_cons_of_mem _ hx)
      have hf := find_of_mem (union_nodup ha hb) (hl e List.mem_cons_self)
      have hp : pick e.key e.shape (union a b) = some (fun st => (e.stored, st)) := by
        unfold pick; rw [hf]; simp only [extract_same]; rfl
      refine ⟨_, by simp only [Bag.specs, List.map_cons, pickAll] at h1 ⊢; rw [hp, h1]; rfl, fun st => ?_⟩
      simp [h2]
  obtain ⟨F, h1, h2⟩ := key (union a b) fun _ h => h
  refine ⟨F, ?_, h2⟩
  unfold merge convert2
  rw [union_specs, if_pos, h1]
  rw [List.all_eq_true]
  intro k hk
  simp only [decide_eq_true_eq, List.mem_append]
  simp only [required, List.mem_map, List.mem_filter, Bag.specs] at hk ⊢
  obtain ⟨_, ⟨⟨e, he, rfl⟩, hr⟩, rfl⟩ := hk
  rcases List.mem_append.1 he with h | h
  · exact .inr ⟨_, ⟨⟨e, h, rfl⟩, hr⟩, rfl⟩
  · exact .inl ⟨_, ⟨⟨e, (List.mem_filter.1 h).1, rfl⟩, hr⟩, rfl⟩

/-- C59: `get` and `has` on a merge are those of the second bag if it has the key, and else those of the
first one; for all specifications.  The merge calls nothing. -/
theorem C59_get {a b : Bag K T V S} (ha : a.valid) (hb : b.valid) :
    ∃ F, merge a b = some F ∧ ∀ st, (F st).2 = st ∧ ∀ k st1,
      ((∃ e ∈ b, e.key = k) → get k (F st).1 st1 = get k b st1 ∧ has k (F st).1 = has k b) ∧
      ((∀ e ∈ b, e.key ≠ k) → get k (F st).1 st1 = get k a st1 ∧ has k (F st).1 = has k a) := by
  obtain ⟨F, h1, h2⟩ := merge_union ha hb
  refine ⟨F, h1, fun st => ?_⟩
  rw [h2]
  refine ⟨rfl, fun k st1 => ?_⟩
  unfold get has
  simp only [union_find]
  refine ⟨fun h => ?_, fun h => ?_⟩
  · rw [if_pos h]; exact ⟨rfl, rfl⟩
  · rw [if_neg]
    · exact ⟨rfl, rfl⟩
    · rintro ⟨e, he, hk⟩; exact h e he hk

/-- C59: the merge is a bag with exactly the keys of both. -/
theorem C59_keys {a b : Bag K T V S} (ha : a.valid) (hb : b.valid) {F : S → Bag K T V S × S}
    (h : merge a b = some F) (st : S) :
    (F st).1.valid ∧ ∀ k, (∃ e ∈ (F st).1, e.key = k) ↔ (∃ e ∈ a, e.key = k) ∨ (∃ e ∈ b, e.key = k) := by
  obtain ⟨F', h1, h2⟩ := merge_union ha hb
  rw [h] at h1
  cases h1
  rw [h2]
  refine ⟨⟨union_nodup ha hb, ?_⟩, fun k => ⟨?_, ?_⟩⟩
  · intro e he
    rcases List.mem_append.1 he with h | h
    · exact hb.2 e h
    · exact ha.2 e (List.mem_filter.1 h).1
  · rintro ⟨e, he, hk⟩
    rcases List.mem_append.1 he with h | h
    · exact .inr ⟨e, h, hk⟩
    · exact .inl ⟨e, (List.mem_filter.1 h).1, hk⟩
  · intro h
    by_cases hk : ∃ e ∈ b, e.key = k
    · obtain ⟨e, he, hk⟩ := hk
      exact ⟨e, List.mem_append_left _ he, hk⟩
    · rcases h with ⟨e, he, rfl⟩ | h
      · refine ⟨e, List.mem_append_right _ (List.mem_filter.2 ⟨he, ?_⟩), rfl⟩
        rw [Option.isNone_iff_eq_none, find_none]
        exact fun e' h1 h2 => hk ⟨e', h1, h2⟩
      · exact absurd h hk

/-! ### Examples -/

/-- A value, a reference, a lazy value, which counts its calls, and two optional ones. -/
def exBag : Bag Nat Nat Nat Nat :=
  [⟨1, .val 1, .val 42⟩, ⟨2, .ref 2, .ref 7⟩, ⟨3, .fn (.val 3), .fn (fun n => .val (10 + n)) (· + 1)⟩,
   ⟨4, .opt (.val 4), .some (.val 5)⟩, ⟨5, .opt (.ref 5), .none⟩]

theorem exBag_valid : exBag.valid := by
  refine ⟨by decide, ?_⟩
  intro e he
  simp only [exBag, List.mem_cons, List.not_mem_nil, or_false] at he
  rcases he with rfl | rfl | rfl | rfl | rfl <;> simp [Stored.fits]

/-- Some become optional, one is missing, and the lazy one stays lazy. -/
def exSpecs : Specs Nat Nat :=
  [(3, .fn (.val 3)), (2, .opt (.ref 2)), (1, .val 1), (6, .opt (.val 6)), (4, .opt (.val 4))]

example : ((convert exSpecs exBag).map fun F =>
    ([1, 2, 3, 4, 6].map fun k => get k (F 0).1 20, has 6 (F 0).1, has 2 (F 0).1, (F 0).2)) =
    some ([some (.value 42, 20), some (.reference 7, 20), some (.value 30, 21), some (.value 5, 20),
      some (.missing, 20)], some false, some true, 0) := by decide +kernel

example : (convert [(5, Shape.ref 5)] exBag).isNone = true := by decide +kernel

/-- Two dependencies of the same type with different keys, one of them optional and one lazy. -/
example : ((«with» [.key 7 (.val 1 1), .opt (.key 8 (.val 1 1)), .fn (.val 1 1)]
    [.val 42, .some (.val 43), .fn (fun n => .val n) (· + 1)] : Option (Bag Nat Nat Nat Nat)).map fun b =>
    [7, 8, 1].map fun k => get k b 5) =
    some [some (.value 42, 5), some (.value 43, 5), some (.value 5, 6)] := by decide +kernel

/-- What is optional cannot become required, even if it is there. -/
example : (convert [(4, Shape.val 4)] exBag).isNone = true := by decide +kernel

/-- A chain. -/
example : ((chain [exSpecs, [(2, .opt (.ref 2)), (1, .opt (.val 1))]] exBag 0).map fun y =>
    (get 2 y.1 9, get 1 y.1 9)) = some (some (.reference 7, 9), some (.value 42, 9)) := by decide +kernel

/-- C59: what the second bag has counts even if it is optional and not there: then the merge does not
have it, though the first bag does. -/
theorem C59_absent_false : ∃ a b : Bag Nat Nat Nat Nat, a.valid ∧ b.valid ∧ has 1 a = some true ∧
    has 1 b = some false ∧ ∃ F, merge a b = some F ∧ get 1 (F 0).1 0 = some (.missing, 0) := by
  refine ⟨[⟨1, .val 1, .val 42⟩], [⟨1, .opt (.val 1), .none⟩], ?_, ?_, rfl, rfl, ?_⟩
  · exact ⟨by decide, by simp [Stored.fits]⟩
  · exact ⟨by decide, by simp [Stored.fits]⟩
  · exact ⟨_, rfl, by decide +kernel⟩

/-- A merge with a shared key, 2. -/
example : ((merge exBag [⟨2, .ref 2, .ref 8⟩, ⟨9, .val 9, .val 0⟩]).map fun F =>
    [1, 2, 9].map fun k => get k (F 0).1 0) =
    some [some (.value 42, 0), some (.reference 8, 0), some (.value 0, 0)] := by decide +kernel

end Verif.Deps
