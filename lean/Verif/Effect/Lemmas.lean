import Verif.Effect.Model
import Verif.Context.Props
import Verif.Deps.Props

/-!
Conversions of contexts with dependencies, and calls of effects.
-/

namespace Verif.Effect

open Verif.Context (World Ctx types compatible Path)
open Verif.Deps (Shape Specs Bag Entry Stored Has)

variable {W : World} {R K T V S : Type} [DecidableEq K] [DecidableEq T]

/-! ### When conversions compile -/

theorem extract_takes (s s' : Shape T) : (Deps.extract (V := V) (S := S) s s').isSome = takes s s' := by
  unfold Deps.extract takes
  split
  · split <;> simp_all
  · split
    · simp_all
    · split <;> simp_all
  · split
    · simp_all
    · split <;> simp_all
  · split <;> simp_all

omit [DecidableEq T] in
theorem find_specs (k : K) (b : Bag K T V S) :
    b.specs.find? (fun y => y.1 = k) = (Deps.find k b).map fun e => (e.key, e.shape) := by
  simp only [Bag.specs, Deps.find, List.find?_map]
  rfl

theorem pick_isSome (k : K) (s : Shape T) (b : Bag K T V S) :
    (Deps.pick k s b).isSome = found b.specs (k, s) := by
  unfold found
  rw [find_specs]
  unfold Deps.pick
  cases Deps.find k b with
  | none => cases s.required <;> simp
  | some e => simp [← extract_takes (V := V) (S := S)]

theorem pickAll_isSome (ss : Specs K T) (b : Bag K T V S) :
    (Deps.pickAll ss b).isSome = ss.all (found b.specs) := by
  induction ss with
  | nil => rfl
  | cons x ss ih =>
    obtain ⟨k, s⟩ := x
    rw [List.all_cons, ← ih, ← pick_isSome]
    simp only [Deps.pickAll]
    cases Deps.pick k s b with
    | none => rfl
    | some f => cases Deps.pickAll ss b <;> rfl

theorem deps_convert (ss : Specs K T) (b : Bag K T V S) :
    (Deps.convert ss b).isSome = depsFit ss b.specs := by
  unfold Deps.convert depsFit
  rw [← pickAll_isSome]
  split
  · rename_i h; rw [h]; rfl
  · rename_i h
    rw [Bool.not_eq_true] at h
    rw [h]; rfl

theorem convert_some {s : Sig W K T} {c : Full W R K T V S} (h : fits s c.sig = true) :
    ∃ F, c.convert s = some F := by
  simp only [fits, Bool.and_eq_true] at h
  obtain ⟨x, hx⟩ := Context.C56_compiles (c := c.ctx) h.1
  have h2 := h.2
  simp only [Full.sig] at h2
  rw [← deps_convert, Option.isSome_iff_exists] at h2
  obtain ⟨F, hF⟩ := h2
  exact ⟨_, by simp only [Full.convert, hx, hF]; rfl⟩

theorem convert_parts {s : Sig W K T} {c : Full W R K T V S} {F : S → Full W R K T V S × S}
    (h : c.convert s = some F) : ∃ x G, c.ctx.convert s.actions = some x ∧ Deps.convert s.deps c.deps = some G ∧
      F = fun st => (⟨x, (G st).1⟩, (G st).2) := by
  simp only [Full.convert, Option.bind_eq_some_iff, Option.map_eq_some_iff] at h
  obtain ⟨x, h1, G, h2, rfl⟩ := h
  exact ⟨x, G, h1, h2, rfl⟩

theorem ctx_types {as : List W.Ty} {c c' : Ctx W R} (h : c.convert as = some c') : types c'.dispatcher = as := by
  unfold Ctx.convert at h
  split at h
  · simp only [Option.map_eq_some_iff] at h
    obtain ⟨d, h1, rfl⟩ := h
    exact Context.convert_types h1
  · cases h

theorem convert_sig {s : Sig W K T} {c : Full W R K T V S} {F : S → Full W R K T V S × S}
    (h : c.convert s = some F) (st : S) : (F st).1.sig = s := by
  obtain ⟨x, G, h1, h2, rfl⟩ := convert_parts h
  show Sig.mk _ _ = _
  rw [ctx_types h1, (Deps.pickAll_mem (Deps.convert_pick h2) st).1]

/-! ### What conversions keep -/

/-- The bag is one that can be made, and lazy references have functions. -/
def Full.good (c : Full W R K T V S) : Prop :=
  c.deps.valid ∧ ∀ k t x, Has c.deps k (.fn (.ref t)) x → x ≠ .null

theorem takes_fnref {s' : Shape T} {t : T} (h : takes (.fn (.ref t)) s' = true) : s' = .fn (.ref t) := by
  simp only [takes, decide_eq_true_eq] at h
  exact h.symm

/-- A dependency of the new bag is made from one of the old bag, or it is not in there. -/
theorem bag_find {ss : Specs K T} {b : Bag K T V S} {G : S → Bag K T V S × S} (h : Deps.convert ss b = some G)
    (hn : (ss.map (·.1)).Nodup) {k : K} {s : Shape T} (hk : (k, s) ∈ ss) (st : S) :
    (∃ e f st0, Deps.find k b = some e ∧ Deps.extract s e.shape = some f ∧
      Deps.find k (G st).1 = some ⟨k, s, (f e.stored st0).1⟩) ∨
    (Deps.find k b = none ∧ s.required = false ∧ Deps.find k (G st).1 = some ⟨k, s, Deps.default s⟩) := by
  obtain ⟨p, st0, h1, h2⟩ := Deps.pickAll_find (Deps.convert_pick h) hn hk st
  unfold Deps.pick at h1
  split at h1
  · rename_i e he
    simp only [Option.map_eq_some_iff] at h1
    obtain ⟨f, h3, rfl⟩ := h1
    exact .inl ⟨e, f, st0, he, h3, h2⟩
  · rename_i he
    split at h1
    · cases h1
    · rename_i hr
      cases h1
      exact .inr ⟨he, by simpa using hr, h2⟩

theorem convert_good {s : Sig W K T} (hs : s.ok) {c : Full W R K T V S} {F : S → Full W R K T V S × S}
    (h : c.convert s = some F) (hc : c.good) (st : S) : (F st).1.good := by
  obtain ⟨x, G, h1, h2, rfl⟩ := convert_parts h
  have hv := Deps.pickAll_valid hc.1 hs.2 (Deps.convert_pick h2) hc.2 st
  refine ⟨hv, ?_⟩
  rintro k t x ⟨e, he, rfl, hsh, rfl⟩ hnull
  have hk : (e.key, e.shape) ∈ s.deps := by
    rw [← (Deps.pickAll_mem (Deps.convert_pick h2) st).1]
    exact List.mem_map.2 ⟨e, he, rfl⟩
  have hf := Deps.find_of_mem hv.1 he
  rcases bag_find h2 hs.2 hk st with ⟨e', f, st0, k1, k2, k3⟩ | ⟨_, k2, _⟩
  · rw [hf, Option.some.injEq] at k3
    have k4 : takes e.shape e'.shape = true := by
      rw [← extract_takes (V := V) (S := S), k2]; rfl
    rw [hsh] at k4 k2
    have k5 := takes_fnref k4
    rw [k5, Deps.extract_same] at k2
    cases k2
    obtain ⟨m1, m2⟩ := Deps.find_mem k1
    refine hc.2 e'.key t e'.stored ⟨e', m1, rfl, k5, rfl⟩ ?_
    rw [← hnull, k3]
  · rw [hsh] at k2; cases k2

/-- The contexts that are made from a context through these types. -/
inductive Made : Full W R K T V S → List (Sig W K T) → Full W R K T V S → Prop where
  | nil (c) : Made c [] c
  | step {c : Full W R K T V S} {s : Sig W K T} {F : S → Full W R K T V S × S} {l : List (Sig W K T)}
      {c' : Full W R K T V S} (st : S) : c.convert s = some F → Made (F st).1 l c' → Made c (s :: l) c'

/-- What is dispatched is dispatched to the store. -/
def Sends {z : W.Ty} (g : W.Val z → R) (lp : Nat) (c : Ctx W R) : Prop :=
  c.loop = lp ∧ ∀ t fn, (⟨t, fn⟩ : Context.Fn W R) ∈ c.dispatcher → ∃ f, Path t z f ∧ fn = g ∘ f

theorem Made.sends {z : W.Ty} {g : W.Val z → R} {lp : Nat} {c c' : Full W R K T V S} {l : List (Sig W K T)}
    (h : Made c l c') (hc : Sends g lp c.ctx) : Sends g lp c'.ctx := by
  induction h with
  | nil => exact hc
  | @step c s F l c' st h1 _ ih =>
    refine ih ?_
    obtain ⟨x, G, h2, _, rfl⟩ := convert_parts h1
    show Sends g lp x
    unfold Ctx.convert at h2
    split at h2
    · simp only [Option.map_eq_some_iff] at h2
      obtain ⟨d, h3, rfl⟩ := h2
      refine ⟨hc.1, fun t fn hm => ?_⟩
      obtain ⟨t', g', cv, h4, h5, rfl⟩ := Context.convert_fns h3 hm
      obtain ⟨f, h6, rfl⟩ := hc.2 _ _ h4
      exact ⟨f ∘ cv, .step h5 h6, rfl⟩
    · cases h2

omit [DecidableEq K] [DecidableEq T] in
theorem specs_has {b : Bag K T V S} {k : K} {s : Shape T} : (k, s) ∈ b.specs ↔ ∃ x, Has b k s x := by
  simp only [Bag.specs, List.mem_map, Prod.mk.injEq, Has]
  constructor
  · rintro ⟨e, h1, h2, h3⟩; exact ⟨_, e, h1, h2, h3, rfl⟩
  · rintro ⟨_, e, h1, h2, h3, rfl⟩; exact ⟨e, h1, h2, h3⟩

/-- What is required in the end is required in all types on the way. -/
theorem Made.required {c c' : Full W R K T V S} {l : List (Sig W K T)} (h : Made c l c') {k : K} {s : Shape T}
    (hk : (k, s) ∈ c'.deps.specs) (hr : s.required = true) :
    (∀ t ∈ l, ∃ s', (k, s') ∈ t.deps) ∧ ∃ s' x, Has c.deps k s' x ∧ s'.required = true := by
  induction h with
  | nil =>
    obtain ⟨x, hx⟩ := specs_has.1 hk
    exact ⟨nofun, s, x, hx, hr⟩
  | @step c t F l c' st h1 _ ih =>
    obtain ⟨i1, s1, x1, i2, i3⟩ := ih hk
    have hsig := convert_sig h1 st
    have hm : (k, s1) ∈ t.deps := by
      rw [← hsig]; exact specs_has.2 ⟨x1, i2⟩
    obtain ⟨x, G, _, h3, rfl⟩ := convert_parts h1
    refine ⟨?_, Deps.C58_required h3 hm i3⟩
    intro t' ht'
    rcases List.mem_cons.1 ht' with rfl | ht'
    · exact ⟨s1, hm⟩
    · exact i1 t' ht'

theorem takes_lazy {s s' : Shape T} (h : takes s s' = true) (hs : ∀ t, s' ≠ .fn (.ref t)) :
    ∀ t, s ≠ .fn (.ref t) := by
  rintro t rfl
  exact hs t (takes_fnref h)

/-- A dependency that all types on the way list is kept. -/
theorem Made.get {c c' : Full W R K T V S} {l : List (Sig W K T)} (h : Made c l c') (hc : c.good)
    (hl : ∀ t ∈ l, t.ok) {k : K} {s : Shape T} {x : Stored V S} (hx : Has c.deps k s x)
    (hs : ∀ t, s ≠ .fn (.ref t)) (hk : ∀ t ∈ l, ∃ s', (k, s') ∈ t.deps) (st1 : S) :
    Deps.get k c'.deps st1 = Deps.get k c.deps st1 := by
  induction h generalizing s x with
  | nil => rfl
  | @step c t F l c' st h1 h2 ih =>
    have ht := hl t List.mem_cons_self
    have hg := convert_good ht h1 hc st
    obtain ⟨s1, hs1⟩ := hk t List.mem_cons_self
    have hsig := convert_sig h1 st
    obtain ⟨x1, hx1⟩ := specs_has.1 (show (k, s1) ∈ (F st).1.deps.specs by
      have : (F st).1.deps.specs = t.deps := by rw [← hsig]; rfl
      rw [this]; exact hs1)
    obtain ⟨y, G, _, h4, rfl⟩ := convert_parts h1
    have hx' := hx
    obtain ⟨e, he, rfl, rfl, rfl⟩ := hx'
    have hf := Deps.find_of_mem hc.1.1 he
    have hfit : takes s1 e.shape = true := by
      rcases bag_find h4 ht.2 hs1 st with ⟨e', f, st0, k1, k2, k3⟩ | ⟨k1, _⟩
      · rw [hf] at k1; cases k1
        rw [← extract_takes (V := V) (S := S), k2]; rfl
      · rw [hf] at k1; cases k1
    rw [ih hg (fun t ht => hl t (List.mem_cons_of_mem _ ht)) hx1 (takes_lazy hfit hs)
      (fun t ht => hk t (List.mem_cons_of_mem _ ht))]
    exact (Deps.C58_convert hc.1 ht.2 h4 hs1 hx st st1).1 (fun t ⟨_, h⟩ => hs t h)

/-- `get` finds nothing: it does not compile, or it throws. -/
def Absent (k : K) (b : Bag K T V S) : Prop :=
  ∀ st, Deps.get k b st = none ∨ Deps.get k b st = some (.missing, st) ∨ Deps.get k b st = some (.badCall, st)

omit [DecidableEq T] in
theorem default_absent {s : Shape T} (h : s.required = false) (st : S) :
    Deps.getS s (Deps.default s : Stored V S) st = (.missing, st) ∨
    Deps.getS s (Deps.default s : Stored V S) st = (.badCall, st) := by
  cases s with
  | val t => cases h
  | ref t => cases h
  | opt s => exact .inl rfl
  | fn s => exact .inr rfl

theorem Made.absent {c c' : Full W R K T V S} {l : List (Sig W K T)} (h : Made c l c') (hc : c.good)
    (hl : ∀ t ∈ l, t.ok) {k : K} (ha : Absent k c.deps) : Absent k c'.deps := by
  induction h with
  | nil => exact ha
  | @step c t F l c' st h1 h2 ih =>
    have ht := hl t List.mem_cons_self
    refine ih (convert_good ht h1 hc st) (fun t ht => hl t (List.mem_cons_of_mem _ ht)) ?_
    have hsig := convert_sig h1 st
    obtain ⟨y, G, _, h4, rfl⟩ := convert_parts h1
    intro st1
    show Deps.get k (G st).1 st1 = _ ∨ _
    cases hf : Deps.find k (G st).1 with
    | none => left; simp [Deps.get, hf]
    | some e =>
      right
      obtain ⟨m1, m2⟩ := Deps.find_mem hf
      have hk : (k, e.shape) ∈ t.deps := by
        rw [← (Deps.pickAll_mem (Deps.convert_pick h4) st).1]
        exact List.mem_map.2 ⟨e, m1, by rw [m2]⟩
      rcases bag_find h4 ht.2 hk st with ⟨e', f, st0, k1, k2, k3⟩ | ⟨k1, k2, k3⟩
      · obtain ⟨n1, n2⟩ := Deps.find_mem k1
        have hx : Has c.deps k e'.shape e'.stored := ⟨e', n1, n2, rfl, rfl⟩
        have hnl : ∀ r, ¬ (e.shape = .ref r ∧ e'.shape = .fn (.ref r)) := by
          rintro r ⟨_, hr⟩
          have hfit := hc.1.2 e' n1
          have hnn := hc.2 k r e'.stored (hr ▸ hx)
          have h5 := ha st1
          simp only [Deps.get, k1, Option.map_some] at h5
          rw [hr] at hfit h5
          cases hst : e'.stored with
          | fn f after =>
            rw [hst] at hfit h5
            have h6 := hfit st1
            cases hfs : f st1 with
            | ref a => simp [Deps.getS, hfs] at h5
            | _ => rw [hfs] at h6; cases h6
          | null => exact hnn hst
          | _ => rw [hst] at hfit; cases hfit
        have h5 := (Deps.C58_convert hc.1 ht.2 h4 hk hx st st1).1 hnl
        rw [h5]
        rcases ha st1 with h | h
        · simp [Deps.get, k1] at h
        · exact h
      · simp only [Deps.get, k3, Option.map_some, Option.some.injEq]
        exact default_absent k2 st1

theorem Made.append {c c' : Full W R K T V S} {l1 l2 : List (Sig W K T)} (h : Made c (l1 ++ l2) c') :
    ∃ c1, Made c l1 c1 ∧ Made c1 l2 c' := by
  induction l1 generalizing c with
  | nil => exact ⟨c, .nil c, h⟩
  | cons s l1 ih =>
    cases h with
    | step st h1 h2 =>
      obtain ⟨c1, h3, h4⟩ := ih h2
      exact ⟨c1, .step st h1 h3, h4⟩

theorem Made.good {c c' : Full W R K T V S} {l : List (Sig W K T)} (h : Made c l c') (hc : c.good)
    (hl : ∀ t ∈ l, t.ok) : c'.good := by
  induction h with
  | nil => exact hc
  | step st h1 _ ih =>
    exact ih (convert_good (hl _ List.mem_cons_self) h1 hc st) (fun t ht => hl t (List.mem_cons_of_mem _ ht))

theorem Made.sig {c c' : Full W R K T V S} {l : List (Sig W K T)} (h : Made c l c') :
    l.getLast?.getD c.sig = c'.sig := by
  induction h with
  | nil => rfl
  | @step c s F l c' st h1 _ ih =>
    rw [convert_sig h1 st] at ih
    rw [List.getLast?_cons]
    exact ih

/-- A dependency that some type on the way does not list is lost. -/
theorem Made.lost {c c' : Full W R K T V S} {l : List (Sig W K T)} (h : Made c l c') (hc : c.good)
    (hl : ∀ t ∈ l, t.ok) {k : K} {t : Sig W K T} (ht : t ∈ l) (hk : ∀ s, (k, s) ∉ t.deps) : Absent k c'.deps := by
  obtain ⟨l1, l2, rfl⟩ := List.append_of_mem ht
  obtain ⟨c1, h1, h2⟩ := h.append
  cases h2 with
  | @step _ _ F _ _ st h3 h4 =>
    have hg1 := h1.good hc (fun t ht => hl t (List.mem_append_left _ ht))
    refine h4.absent (convert_good (hl t ht) h3 hg1 st)
      (fun t ht => hl t (List.mem_append_right _ (List.mem_cons_of_mem _ ht))) ?_
    have hsig := convert_sig h3 st
    intro st1
    left
    cases hf : Deps.find k (F st).1.deps with
    | none => simp only [Deps.get, hf]; rfl
    | some e =>
      obtain ⟨m1, m2⟩ := Deps.find_mem hf
      refine absurd ?_ (hk e.shape)
      rw [← hsig]
      exact specs_has.2 ⟨e.stored, e, m1, m2, rfl, rfl⟩

/-! ### The types of effects -/

theorem merge_nodup {a1 a2 : List W.Ty} (h : a2.Nodup) :
    (Context.merge (fun x y => (W.conv x y).isSome) a1 a2).Nodup := by
  obtain ⟨l, h1, -, h3⟩ := Context.C57_added (conv := fun x y => (W.conv x y).isSome) a1 a2
  rw [h1]
  have hne : ∀ l1 x l2, l = l1 ++ x :: l2 → x ∉ a2 ++ l1 := by
    intro l1 x l2 hl hx
    have := h3 l1 x l2 hl x hx
    simp [W.conv_refl] at this
  clear h1 h3
  induction l generalizing a2 with
  | nil => simpa using h
  | cons y l ih =>
    have key : (a2 ++ [y] ++ l).Nodup := by
      refine ih ?_ ?_
      rotate_left
      · intro l1 x l2 hl hx
        exact hne (y :: l1) x l2 (by rw [hl]; rfl) (by simpa using hx)
      rw [List.nodup_append]
      refine ⟨h, by simp, ?_⟩
      intro x hx z hz hxz
      rw [List.mem_singleton] at hz
      subst hz hxz
      exact hne [] x l rfl (by simpa using hx)
    simpa using key

omit [DecidableEq T] in
theorem union_ok {a b : Specs K T} (ha : (a.map (·.1)).Nodup) (hb : (b.map (·.1)).Nodup) :
    ((Deps.unionSpecs a b).map (·.1)).Nodup := by
  unfold Deps.unionSpecs
  rw [List.map_append, List.nodup_append]
  refine ⟨hb, ha.sublist (List.filter_sublist.map _), ?_⟩
  intro x hx y hy hxy
  subst hxy
  obtain ⟨e, h1, rfl⟩ := List.mem_map.1 hx
  obtain ⟨e', h2, h3⟩ := List.mem_map.1 hy
  have h4 := (List.mem_filter.1 h2).2
  rw [Option.isNone_iff_eq_none, List.find?_eq_none] at h4
  have := h4 e h1
  simp [h3] at this

omit [DecidableEq T] in
theorem joined_ok {s s' : Sig W K T} (h : s.ok) (h' : s'.ok) : (joined s s').ok :=
  ⟨merge_nodup h'.1, union_ok h.2 h'.2⟩

theorem sig_ok {e : Eff W K T} {s : Sig W K T} (h : e.sig = some s) : s.ok := by
  induction e generalizing s with
  | fn id t =>
    simp only [Eff.sig] at h
    split at h
    · cases h; assumption
    · cases h
  | null t =>
    simp only [Eff.sig] at h
    split at h
    · cases h; assumption
    · cases h
  | conv t e _ =>
    simp only [Eff.sig, Option.bind_eq_some_iff] at h
    obtain ⟨s', _, h⟩ := h
    split at h
    · rename_i h1; cases h; exact h1.1
    · cases h
  | seq a b iha ihb =>
    simp only [Eff.sig, Option.bind_eq_some_iff] at h
    obtain ⟨s1, h1, s2, h2, h⟩ := h
    split at h
    · cases h; exact joined_ok (iha h1) (ihb h2)
    · cases h

theorem conv_sig {e : Eff W K T} {s t : Sig W K T} (h : (Eff.conv s e).sig = some t) :
    t = s ∧ ∃ s', e.sig = some s' ∧ fits s' s = true := by
  simp only [Eff.sig, Option.bind_eq_some_iff] at h
  obtain ⟨s', h1, h⟩ := h
  split at h
  · rename_i h2; cases h; exact ⟨rfl, s', h1, h2.2⟩
  · cases h

theorem seq_sig {a b : Eff W K T} {t : Sig W K T} (h : (Eff.seq a b).sig = some t) :
    ∃ s s', a.sig = some s ∧ b.sig = some s' ∧ t = joined s s' ∧ fits s t = true ∧ fits s' t = true := by
  simp only [Eff.sig, Option.bind_eq_some_iff] at h
  obtain ⟨s1, h1, s2, h2, h⟩ := h
  split at h
  · rename_i h3; cases h; exact ⟨s1, s2, h1, h2, rfl, h3.2.2.1, h3.2.2.2⟩
  · cases h

/-! ### Calls -/

theorem enter_some {o : Option (Sig W K T)} {c : Full W R K T V S} {st : S}
    {k : Full W R K T V S → S → Out W R K T V S} (h : enter o c st k ≠ .stuck) :
    ∃ s F, o = some s ∧ c.convert s = some F ∧ enter o c st k = k (F st).1 (F st).2 := by
  unfold enter at h ⊢
  split at h
  · rename_i F hF
    rw [Option.bind_eq_some_iff] at hF
    obtain ⟨s, h1, h2⟩ := hF
    exact ⟨s, F, h1, h2, rfl⟩
  · exact absurd rfl h

theorem enter_eq {s : Sig W K T} {c : Full W R K T V S} {F : S → Full W R K T V S × S}
    (h : c.convert s = some F) (st : S) (k : Full W R K T V S → S → Out W R K T V S) :
    enter (some s) c st k = k (F st).1 (F st).2 := by
  unfold enter
  simp only [Option.bind_some, h]

end Verif.Effect
