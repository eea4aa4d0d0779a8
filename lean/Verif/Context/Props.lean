import Verif.Context.Model

/-!
Properties C56 and C57: conversions of contexts, and merged lists of actions.
-/

namespace Verif.Context

variable {W : World} {R : Type}

/-! ### Specification -/

/-- Conversions to `z` do not depend on the way: whenever `x` converts to `y` and `y` converts to `z`, then
`x` converts to `z` with the same result. -/
def World.coherent (W : World) (z : W.Ty) : Prop :=
  ∀ x y f g, W.conv x y = some f → W.conv y z = some g → W.conv x z = some (g ∘ f)

/-- Implicit conversions from `x` to `y`, in several steps. -/
inductive Path : (x y : W.Ty) → (W.Val x → W.Val y) → Prop where
  | refl (x : W.Ty) : Path x x id
  | step {x y z : W.Ty} {f : W.Val x → W.Val y} {g : W.Val y → W.Val z} :
      W.conv x y = some f → Path y z g → Path x z (g ∘ f)

/-- The steps in which contexts are made from contexts: a conversion, or a converter. -/
inductive Conversion (W : World) where
  | sub (as : List W.Ty)
  | via (k : Converter W) (as : List W.Ty)

def Ctx.apply (c : Ctx W R) : Conversion W → Option (Ctx W R)
  | .sub as => c.convert as
  | .via k as => c.convertWith k as

/-- A chain of conversions, the last one first. -/
def chain (c : Ctx W R) : List (Conversion W) → Option (Ctx W R)
  | [] => some c
  | s :: l => (chain c l).bind fun c' => c'.apply s

/-- What a chain makes of an action, in the end an action of type `z`: it is passed to the converters, the
last one first, and implicit conversions take place before and after each. -/
inductive Sent (z : W.Ty) : List (Conversion W) → (x : W.Ty) → (W.Val x → W.Val z) → Prop where
  | nil {x : W.Ty} {f : W.Val x → W.Val z} : Path x z f → Sent z [] x f
  | sub {l : List (Conversion W)} {as : List W.Ty} {x : W.Ty} {f : W.Val x → W.Val z} :
      Sent z l x f → Sent z (.sub as :: l) x f
  | via {l : List (Conversion W)} {k : Converter W} {as : List W.Ty} {x w y : W.Ty}
      {c : W.Val x → W.Val w} {f : W.Val w → W.Val y} {g : W.Val y → W.Val z} :
      Path x w c → k w = some ⟨y, f⟩ → Sent z l y g → Sent z (.via k as :: l) x (g ∘ f ∘ c)

/-- The context of a store with actions of type `z`: `g` dispatches. -/
def Ctx.root (z : W.Ty) (g : W.Val z → R) (loop : Nat) : Ctx W R := ⟨[⟨z, g⟩], loop⟩

/-! ### Lemmas -/

theorem each_some {α β : Type} {f : α → Option β} {l : List α} {ys : List β} (h : each f l = some ys) :
    (∀ x ∈ l, ∃ y ∈ ys, f x = some y) ∧ (∀ y ∈ ys, ∃ x ∈ l, f x = some y) := by
  induction l generalizing ys with
  | nil => cases h; exact ⟨nofun, nofun⟩
  | cons x l ih =>
    simp only [each, Option.bind_eq_some_iff, Option.map_eq_some_iff] at h
    obtain ⟨y, h1, ys', h2, rfl⟩ := h
    obtain ⟨i1, i2⟩ := ih h2
    refine ⟨fun a ha => ?_, fun b hb => ?_⟩
    · rcases List.mem_cons.1 ha with rfl | ha
      · exact ⟨y, List.mem_cons_self, h1⟩
      · obtain ⟨b, h3, h4⟩ := i1 a ha
        exact ⟨b, List.mem_cons_of_mem _ h3, h4⟩
    · rcases List.mem_cons.1 hb with rfl | hb
      · exact ⟨x, List.mem_cons_self, h1⟩
      · obtain ⟨a, h3, h4⟩ := i2 b hb
        exact ⟨a, List.mem_cons_of_mem _ h3, h4⟩

theorem find_some {x : W.Ty} {d : Dispatcher W R} {fn : W.Val x → R} (h : find x d = some fn) :
    ∃ t g c, (⟨t, g⟩ : Fn W R) ∈ d ∧ W.conv x t = some c ∧ fn = g ∘ c := by
  induction d with
  | nil => cases h
  | cons f d ih =>
    obtain ⟨t, g⟩ := f
    simp only [find] at h
    split at h
    · rename_i c hc
      cases h
      exact ⟨t, g, c, List.mem_cons_self, hc, rfl⟩
    · obtain ⟨t', g', c', h1, h2⟩ := ih h
      exact ⟨t', g', c', List.mem_cons_of_mem _ h1, h2⟩

theorem find_none {x : W.Ty} {d : Dispatcher W R} (h : find x d = none) :
    ∀ t ∈ types d, W.conv x t = none := by
  induction d with
  | nil => exact nofun
  | cons f d ih =>
    obtain ⟨t, g⟩ := f
    simp only [find] at h
    split at h
    · cases h
    · rename_i hc
      intro t' ht
      rcases List.mem_cons.1 ht with rfl | ht
      · exact hc
      · exact ih h t' ht

theorem dispatch_fn {d : Dispatcher W R} {x : W.Ty} {v : W.Val x} {r : R} (h : dispatch d x v = some r) :
    ∃ t g c, (⟨t, g⟩ : Fn W R) ∈ d ∧ W.conv x t = some c ∧ r = g (c v) := by
  unfold dispatch at h
  split at h
  · rename_i t fn hf
    simp only [Option.map_eq_some_iff] at h
    obtain ⟨c, h1, rfl⟩ := h
    exact ⟨t, fn, c, List.mem_of_find?_eq_some hf, h1, rfl⟩
  · split at h
    · rename_i t fn hf
      simp only [Option.map_eq_some_iff] at h
      obtain ⟨c, h1, rfl⟩ := h
      have : (⟨t, fn⟩ : Fn W R) ∈ d.filter (fun f => (W.conv x f.1).isSome) := by
        rw [hf]; exact List.mem_cons_self
      exact ⟨t, fn, c, (List.mem_filter.1 this).1, h1, rfl⟩
    · cases h

/-- Dispatching an action that the dispatcher has a function for. -/
theorem dispatch_exact {d : Dispatcher W R} {x : W.Ty} (h : x ∈ types d) (v : W.Val x) :
    ∃ fn, (⟨x, fn⟩ : Fn W R) ∈ d ∧ dispatch d x v = some (fn v) := by
  unfold dispatch
  cases hf : d.find? (fun f => f.1 = x) with
  | none =>
    simp only [types, List.mem_map] at h
    obtain ⟨f, h1, h2⟩ := h
    have := List.find?_eq_none.1 hf f h1
    simp [h2] at this
  | some f =>
    obtain ⟨t, fn⟩ := f
    have h1 := List.find?_some hf
    simp only [decide_eq_true_eq] at h1
    subst h1
    refine ⟨fn, List.mem_of_find?_eq_some hf, ?_⟩
    simp [W.conv_refl]

theorem each_types {as : List W.Ty} {d d' : Dispatcher W R}
    (h : each (fun x => (find x d).map fun fn => (⟨x, fn⟩ : Fn W R)) as = some d') : types d' = as := by
  induction as generalizing d' with
  | nil => cases h; rfl
  | cons x as ih =>
    simp only [each, Option.bind_eq_some_iff, Option.map_eq_some_iff] at h
    obtain ⟨f, ⟨fn, _, rfl⟩, d1, h2, rfl⟩ := h
    have := ih h2
    simp only [types] at this
    simp [types, this]

theorem convert_types {as : List W.Ty} {d d' : Dispatcher W R} (h : convert as d = some d') :
    types d' = as := by
  unfold convert at h
  split at h
  · rename_i he; cases h; exact he.symm
  · exact each_types h

/-- The functions of a converted dispatcher. -/
theorem convert_fns {as : List W.Ty} {d d' : Dispatcher W R} (h : convert as d = some d') {t : W.Ty}
    {fn : W.Val t → R} (hm : (⟨t, fn⟩ : Fn W R) ∈ d') :
    ∃ t' g c, (⟨t', g⟩ : Fn W R) ∈ d ∧ W.conv t t' = some c ∧ fn = g ∘ c := by
  unfold convert at h
  split at h
  · cases h; exact ⟨t, fn, id, hm, W.conv_refl t, rfl⟩
  · obtain ⟨y, _, h5⟩ := (each_some h).2 _ hm
    simp only [Option.map_eq_some_iff] at h5
    obtain ⟨fn', h6, h7⟩ := h5
    cases h7
    exact find_some h6

theorem convertWith_types {k : Converter W} {as : List W.Ty} {d d' : Dispatcher W R}
    (h : convertWith k as d = some d') : types d' = as := by
  induction as generalizing d' with
  | nil => cases h; rfl
  | cons x as ih =>
    simp only [convertWith, each, Option.bind_eq_some_iff, Option.map_eq_some_iff] at h
    obtain ⟨f, ⟨y, _, fn, _, rfl⟩, d1, h2, rfl⟩ := h
    have := ih h2
    simp only [types] at this
    simp [types, this]

/-! ### C56 -/

theorem mem_unique {d : Dispatcher W R} (hu : (types d).Nodup) {t : W.Ty} {f g : W.Val t → R}
    (hf : (⟨t, f⟩ : Fn W R) ∈ d) (hg : (⟨t, g⟩ : Fn W R) ∈ d) : f = g := by
  induction d with
  | nil => cases hf
  | cons x d ih =>
    simp only [types, List.map_cons, List.nodup_cons] at hu
    obtain ⟨h1, h2⟩ := hu
    rcases List.mem_cons.1 hf with h | hf' <;> rcases List.mem_cons.1 hg with k | hg'
    · rw [← h] at k; cases k; rfl
    · subst h; exact absurd (List.mem_map.2 ⟨_, hg', rfl⟩) h1
    · subst k; exact absurd (List.mem_map.2 ⟨_, hf', rfl⟩) h1
    · exact ih h2 hf' hg'

theorem dispatch_mem {d : Dispatcher W R} (hu : (types d).Nodup) {t : W.Ty} {g : W.Val t → R}
    (hg : (⟨t, g⟩ : Fn W R) ∈ d) (v : W.Val t) : dispatch d t v = some (g v) := by
  obtain ⟨fn, h1, h2⟩ := dispatch_exact (List.mem_map.2 ⟨_, hg, rfl⟩) v
  rw [h2, mem_unique hu h1 hg]

/-- C56: dispatching `v` on a converted context is the same as dispatching, on the original one, the
action that `v` converts to. -/
theorem C56_convert {as : List W.Ty} {c c' : Ctx W R} (hu : (types c.dispatcher).Nodup)
    (h : c.convert as = some c') {x : W.Ty} (hx : x ∈ as) (v : W.Val x) :
    ∃ t f, t ∈ types c.dispatcher ∧ W.conv x t = some f ∧
      dispatch c'.dispatcher x v = dispatch c.dispatcher t (f v) ∧
      dispatch c'.dispatcher x v ≠ none ∧ c'.loop = c.loop := by
  unfold Ctx.convert at h
  split at h
  · simp only [Option.map_eq_some_iff] at h
    obtain ⟨d, h1, rfl⟩ := h
    obtain ⟨fn, h2, h3⟩ := dispatch_exact (d := d) (by rw [convert_types h1]; exact hx) v
    obtain ⟨t, g, cv, h8, h9, rfl⟩ := convert_fns h1 h2
    refine ⟨t, cv, List.mem_map.2 ⟨_, h8, rfl⟩, h9, ?_, ?_, rfl⟩
    · rw [h3, dispatch_mem hu h8]; rfl
    · rw [h3]; simp
  · cases h

/-- C56: the same with a converter `k`, which is applied first. -/
theorem C56_converter {k : Converter W} {as : List W.Ty} {c c' : Ctx W R}
    (hu : (types c.dispatcher).Nodup) (h : c.convertWith k as = some c') {x : W.Ty} (hx : x ∈ as)
    (v : W.Val x) :
    ∃ y f t g, k x = some ⟨y, f⟩ ∧ t ∈ types c.dispatcher ∧ W.conv y t = some g ∧
      dispatch c'.dispatcher x v = dispatch c.dispatcher t (g (f v)) ∧
      dispatch c'.dispatcher x v ≠ none ∧ c'.loop = c.loop := by
  unfold Ctx.convertWith at h
  simp only [Option.map_eq_some_iff] at h
  obtain ⟨d, h1, rfl⟩ := h
  obtain ⟨fn, h2, h3⟩ := dispatch_exact (d := d) (by rw [convertWith_types h1]; exact hx) v
  obtain ⟨x', _, h5⟩ := (each_some h1).2 _ h2
  simp only [Option.bind_eq_some_iff, Option.map_eq_some_iff] at h5
  obtain ⟨⟨y, f⟩, h6, fn', h7, h8⟩ := h5
  cases h8
  obtain ⟨t, g, cv, h9, h10, rfl⟩ := find_some h7
  refine ⟨y, f, t, cv, h6, List.mem_map.2 ⟨_, h9, rfl⟩, h10, ?_, ?_, rfl⟩
  · rw [h3, dispatch_mem hu h9]; rfl
  · rw [h3]; simp

/-- Each conversion that `std::enable_if` lets take part compiles. -/
theorem C56_compiles {as : List W.Ty} {c : Ctx W R} (h : compatible W as (types c.dispatcher) = true) :
    ∃ c', c.convert as = some c' := by
  have : ∃ d, Context.convert as c.dispatcher = some d := by
    unfold Context.convert
    split
    · exact ⟨_, rfl⟩
    rename_i h0
    clear h0
    simp only [compatible, List.all_eq_true, List.any_eq_true] at h
    induction as with
    | nil => exact ⟨[], rfl⟩
    | cons x as ih =>
      obtain ⟨d, hd⟩ := ih fun y hy => h y (List.mem_cons_of_mem _ hy)
      simp only [each, hd]
      cases hf : find x c.dispatcher with
      | some fn => exact ⟨_, rfl⟩
      | none =>
        obtain ⟨t, h1, h2⟩ := h x List.mem_cons_self
        rw [find_none hf t h1] at h2
        cases h2
  obtain ⟨d, hd⟩ := this
  exact ⟨⟨d, c.loop⟩, by unfold Ctx.convert; rw [if_pos h, hd]; rfl⟩

theorem Path.trans {x y z : W.Ty} {f : W.Val x → W.Val y} {g : W.Val y → W.Val z} (h : Path x y f)
    (k : Path y z g) : Path x z (g ∘ f) := by
  induction h with
  | refl => exact k
  | step h1 _ ih => have := Path.step h1 (ih k); exact this

theorem Sent.pre {z : W.Ty} {l : List (Conversion W)} {x y : W.Ty} {f : W.Val x → W.Val y}
    {g : W.Val y → W.Val z} (h : W.conv x y = some f) (k : Sent z l y g) : Sent z l x (g ∘ f) := by
  induction k with
  | nil p => exact .nil (.step h p)
  | sub _ ih => exact .sub (ih h)
  | @via l k as _ _ _ _ _ _ p hk s _ =>
    have := Sent.via (as := as) (.step h p) hk s
    exact this

/-- The functions of the contexts in a chain. -/
theorem chain_fns {z : W.Ty} {g : W.Val z → R} {lp : Nat} {l : List (Conversion W)} {c : Ctx W R}
    (h : chain (.root z g lp) l = some c) :
    c.loop = lp ∧ ∀ t fn, (⟨t, fn⟩ : Fn W R) ∈ c.dispatcher → ∃ f, Sent z l t f ∧ fn = g ∘ f := by
  induction l generalizing c with
  | nil =>
    cases h
    refine ⟨rfl, fun t fn hm => ?_⟩
    simp only [Ctx.root, List.mem_singleton] at hm
    cases hm
    exact ⟨id, .nil (.refl z), rfl⟩
  | cons s l ih =>
    simp only [chain, Option.bind_eq_some_iff] at h
    obtain ⟨c1, h1, h2⟩ := h
    obtain ⟨i1, i2⟩ := ih h1
    cases s with
    | sub as =>
      simp only [Ctx.apply, Ctx.convert] at h2
      split at h2
      · simp only [Option.map_eq_some_iff] at h2
        obtain ⟨d, h3, rfl⟩ := h2
        refine ⟨i1, fun t fn hm => ?_⟩
        obtain ⟨t', g', cv, h8, h9, rfl⟩ := convert_fns h3 hm
        obtain ⟨f, h10, rfl⟩ := i2 _ _ h8
        exact ⟨f ∘ cv, .sub (h10.pre h9), rfl⟩
      · cases h2
    | via k as =>
      simp only [Ctx.apply, Ctx.convertWith, Option.map_eq_some_iff] at h2
      obtain ⟨d, h3, rfl⟩ := h2
      refine ⟨i1, fun t fn hm => ?_⟩
      obtain ⟨x', _, h5⟩ := (each_some h3).2 _ hm
      simp only [Option.bind_eq_some_iff, Option.map_eq_some_iff] at h5
      obtain ⟨⟨y, f⟩, h6, fn', h7, h8⟩ := h5
      cases h8
      obtain ⟨t', g', cv, h9, h10, rfl⟩ := find_some h7
      obtain ⟨f', h11, rfl⟩ := i2 _ _ h9
      exact ⟨(f' ∘ cv) ∘ f ∘ id, .via (.refl t) h6 (h11.pre h10), rfl⟩

/-- C56: conversions compose.  Whatever chain of conversions and converters a context of a store has gone
through, what is dispatched to the store is the action, passed through all converters of the chain, the
last one first, with implicit conversions between them. -/
theorem C56_chain {z : W.Ty} {g : W.Val z → R} {lp : Nat} {l : List (Conversion W)} {c : Ctx W R}
    (h : chain (.root z g lp) l = some c) {x : W.Ty} {v : W.Val x} {r : R}
    (hr : dispatch c.dispatcher x v = some r) :
    c.loop = lp ∧ ∃ f, Sent z l x f ∧ r = g (f v) := by
  obtain ⟨h1, h2⟩ := chain_fns h
  obtain ⟨t, fn, cv, h3, h4, rfl⟩ := dispatch_fn hr
  obtain ⟨f, h5, rfl⟩ := h2 _ _ h3
  exact ⟨h1, f ∘ cv, h5.pre h4, rfl⟩

theorem Path.coherent {z : W.Ty} (hz : W.coherent z) {x : W.Ty} {f : W.Val x → W.Val z}
    (h : Path x z f) : W.conv x z = some f := by
  induction h with
  | refl => exact W.conv_refl _
  | step h1 _ ih => exact hz _ _ _ _ h1 (ih hz)

/-- C56: in particular, if implicit conversions to the actions of the store do not depend on the way, then
after any number of conversions dispatching an action does what dispatching it on the original context
does. -/
theorem C56_compose {z : W.Ty} (hz : W.coherent z) {g : W.Val z → R} {lp : Nat} {as : List (List W.Ty)}
    {c : Ctx W R} (h : chain (.root z g lp) (as.map .sub) = some c) {x : W.Ty} {v : W.Val x} {r : R}
    (hr : dispatch c.dispatcher x v = some r) :
    dispatch (Ctx.root z g lp).dispatcher x v = some r := by
  obtain ⟨_, f, h1, rfl⟩ := C56_chain h hr
  have h2 : W.conv x z = some f := by
    clear h hr
    induction as with
    | nil => cases h1 with | nil p => exact p.coherent hz
    | cons a as ih => cases h1 with | sub s => exact ih s
  unfold dispatch
  simp only [Ctx.root, List.find?_cons, List.find?_nil]
  by_cases hx : z = x
  · subst hx
    simp only [decide_true]
    rw [h2]; rfl
  · simp only [hx, decide_false, List.filter_cons, List.filter_nil, h2, Option.isSome_some, if_true]
    rfl

/-! ### An example

`mid` is a variant of `a` and `b`, and `any` one of `mid` and others. -/

inductive ExTy where
  | a | b | mid | any
deriving DecidableEq

def exConv : ExTy → ExTy → Option (Nat → Nat)
  | .a, .a => some id
  | .b, .b => some id
  | .mid, .mid => some id
  | .any, .any => some id
  | .a, .mid => some fun n => 2 * n
  | .b, .mid => some fun n => 2 * n + 1
  | .mid, .any => some fun n => n + 100
  | .a, .any => some fun n => 2 * n + 100
  | .b, .any => some fun n => 2 * n + 1 + 100
  | _, _ => none

def exWorld : World where
  Ty := ExTy
  Val _ := Nat
  eq := inferInstance
  conv := exConv
  conv_refl x := by cases x <;> rfl

theorem exWorld_coherent : exWorld.coherent ExTy.any := by
  intro x y f g h1 h2
  change exConv x y = some f at h1
  change exConv y .any = some g at h2
  change exConv x .any = some (g ∘ f)
  cases x <;> cases y <;> cases h1 <;> cases h2 <;> rfl

/-- A converter that accepts `b` only. -/
def exConverter : Converter exWorld := fun x => match (x : ExTy) with
  | .b => some ⟨(ExTy.a : ExTy), fun (n : Nat) => (n + 1 : Nat)⟩
  | _ => none

def exRoot : Ctx exWorld Nat := .root (W := exWorld) ExTy.any (fun (n : Nat) => n) 7

/-- The result of dispatching after a chain of conversions. -/
def exRun (l : List (Conversion exWorld)) (x : ExTy) (n : Nat) : Option Nat :=
  (chain exRoot l).bind fun c => dispatch c.dispatcher (x : exWorld.Ty) n

example : exRun [.sub [ExTy.b], .sub [ExTy.mid, ExTy.a]] .b 5 = some 111 := by decide +kernel
example : exRun [.sub [ExTy.a, ExTy.b]] .b 5 = some 111 := by decide +kernel
example : exRun [.via exConverter [ExTy.b], .sub [ExTy.mid]] .b 5 = some 112 := by decide +kernel
example : exRun [.sub [ExTy.mid], .sub [ExTy.a]] .b 5 = none := by decide +kernel

/-! ### C57 -/

/-- C57: the merged list accepts every action of either list, and has no other types. -/
theorem C57_covers {Ty : Type} {conv : Ty → Ty → Bool} (hr : ∀ x, conv x x = true) (a1 a2 : List Ty) :
    (∀ x, x ∈ a1 ∨ x ∈ a2 → ∃ t ∈ merge conv a1 a2, conv x t = true) ∧
    (∀ t ∈ merge conv a1 a2, t ∈ a1 ∨ t ∈ a2) := by
  have key : ∀ acc : List Ty, (∀ x, x ∈ a1 ∨ x ∈ acc → ∃ t ∈ merge conv a1 acc, conv x t = true) ∧
      (∀ t ∈ merge conv a1 acc, t ∈ a1 ∨ t ∈ acc) ∧ acc <+: merge conv a1 acc := by
    induction a1 with
    | nil =>
      intro acc
      refine ⟨?_, fun t h => .inr h, List.prefix_refl _⟩
      rintro x (h | h)
      · cases h
      · exact ⟨x, h, hr x⟩
    | cons y a1 ih =>
      intro acc
      simp only [merge, List.foldl_cons]
      split
      · rename_i hy
        simp only [List.any_eq_true] at hy
        obtain ⟨t, h1, h2⟩ := hy
        obtain ⟨i1, i2, i3⟩ := ih acc
        refine ⟨?_, fun t h => ?_, i3⟩
        · rintro x (h | h)
          · rcases List.mem_cons.1 h with rfl | h
            · exact ⟨t, i3.subset h1, h2⟩
            · exact i1 x (.inl h)
          · exact i1 x (.inr h)
        · rcases i2 t h with h | h
          · exact .inl (List.mem_cons_of_mem _ h)
          · exact .inr h
      · rename_i hy
        have hf : (acc.filter fun t => !conv y t) = acc := by
          rw [List.filter_eq_self]
          intro t ht
          cases hc : conv y t with
          | false => rfl
          | true => exact absurd (List.any_eq_true.2 ⟨t, ht, hc⟩) hy
        rw [hf]
        obtain ⟨i1, i2, i3⟩ := ih (acc ++ [y])
        refine ⟨?_, fun t h => ?_, (List.prefix_append _ _).trans i3⟩
        · rintro x (h | h)
          · rcases List.mem_cons.1 h with rfl | h
            · exact i1 x (.inr (by simp))
            · exact i1 x (.inl h)
          · exact i1 x (.inr (by simp [h]))
        · rcases i2 t h with h | h
          · exact .inl (List.mem_cons_of_mem _ h)
          · rcases List.mem_append.1 h with h | h
            · exact .inr h
            · rw [List.mem_singleton] at h
              subst h
              exact .inl List.mem_cons_self
  exact ⟨(key a2).1, (key a2).2.1⟩

/-- C57: what merging adds to the second list comes after it, and is convertible to nothing before it. -/
theorem C57_added {Ty : Type} {conv : Ty → Ty → Bool} (a1 a2 : List Ty) :
    ∃ l, merge conv a1 a2 = a2 ++ l ∧ (∀ x ∈ l, x ∈ a1) ∧
      ∀ l1 x l2, l = l1 ++ x :: l2 → ∀ t ∈ a2 ++ l1, conv x t = false := by
  induction a1 generalizing a2 with
  | nil => exact ⟨[], by simp [merge], nofun, fun l1 x l2 h => by cases l1 <;> cases h⟩
  | cons y a1 ih =>
    simp only [merge, List.foldl_cons]
    split
    · obtain ⟨l, h1, h2, h3⟩ := ih a2
      exact ⟨l, h1, fun x hx => List.mem_cons_of_mem _ (h2 x hx), h3⟩
    · rename_i hy
      have hn : ∀ t ∈ a2, conv y t = false := by
        intro t ht
        cases hc : conv y t with
        | false => rfl
        | true => exact absurd (List.any_eq_true.2 ⟨t, ht, hc⟩) hy
      have hf : (a2.filter fun t => !conv y t) = a2 := by
        rw [List.filter_eq_self]
        intro t ht
        rw [hn t ht]; rfl
      rw [hf]
      obtain ⟨l, h1, h2, h3⟩ := ih (a2 ++ [y])
      refine ⟨y :: l, ?_, ?_, ?_⟩
      · rw [List.append_assoc] at h1; exact h1
      · intro x hx
        rcases List.mem_cons.1 hx with rfl | hx
        · exact List.mem_cons_self
        · exact List.mem_cons_of_mem _ (h2 x hx)
      · intro l1 x l2 h t ht
        cases l1 with
        | nil => cases h; exact hn t (by simpa using ht)
        | cons z l1 =>
          cases h
          exact h3 l1 x l2 rfl t (by simpa using ht)

/-- C57 is false in general: an action of the second list that is convertible to one that merging adds
stays. -/
theorem C57_minimal_false : ∃ conv : Bool → Bool → Bool, (∀ x, conv x x = true) ∧
    (∀ x y z, conv x y = true → conv y z = true → conv x z = true) ∧
    ∃ a1 a2 t x l1 l2 l3, merge conv a1 a2 = l1 ++ t :: l2 ++ x :: l3 ∧ conv t x = true ∧ conv x t = false := by
  refine ⟨fun x y => !x || y, by decide, by decide, [true], [false], false, true, [], [], [], ?_⟩
  decide

/-- C57: so the contexts of a sequence can be converted to those of both parts: `are_compatible_actions` is
true for both. -/
theorem C57_compatible (W : World) (a1 a2 : List W.Ty) :
    compatible W a1 (merge (fun x y => (W.conv x y).isSome) a1 a2) = true ∧
    compatible W a2 (merge (fun x y => (W.conv x y).isSome) a1 a2) = true := by
  have h := (C57_covers (conv := fun x y => (W.conv x y).isSome) (fun x => by simp [W.conv_refl]) a1 a2).1
  simp only [compatible, List.all_eq_true, List.any_eq_true]
  exact ⟨fun x hx => h x (.inl hx), fun x hx => h x (.inr hx)⟩

example : merge (fun x y => (exConv x y).isSome) [.any, .a, .b] [.a, .mid] = [.a, .mid, .any] := by
  decide +kernel

end Verif.Context
