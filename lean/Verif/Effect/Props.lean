import Verif.Effect.Lemmas

/-!
Property C105: effects of nested reducers.
-/

namespace Verif.Effect

open Verif.Context (World Ctx types compatible Path)
open Verif.Deps (Shape Specs Bag Entry Stored Has)

variable {W : World} {R K T V S : Type} [DecidableEq K] [DecidableEq T]

/-! ### Specification -/

/-- The user functions of an effect, with the types of the contexts that they take, in the order in which they are
meant to be called; `none` is a null effect. -/
def Eff.plan : Eff W K T → List (Option (Nat × Sig W K T))
  | .fn id s => [some (id, s)]
  | .null _ => [none]
  | .conv _ e => e.plan
  | .seq a b => a.plan ++ b.plan

def via (s : Sig W K T) (w : Option (Nat × List (Sig W K T))) : Option (Nat × List (Sig W K T)) :=
  w.map fun x => (x.1, s :: x.2)

/-- The same with the types of all effects around each function, the outermost first. -/
def Eff.ways : Eff W K T → List (Option (Nat × List (Sig W K T)))
  | .fn id s => [some (id, [s])]
  | .null _ => [none]
  | .conv s e => e.ways.map (via s)
  | .seq a b =>
    match (Eff.seq a b).sig with
    | some s => (a.ways ++ b.ways).map (via s)
    | none => []

/-- The functions that a call has called. -/
def Out.calls : Out W R K T V S → List (Nat × Full W R K T V S)
  | .stuck => []
  | .done l _ => l
  | .threw l _ => l

/-! ### Lemmas -/

variable {code : Nat → Full W R K T V S → S → S}

theorem run_some {e : Eff W K T} {c : Full W R K T V S} {st : S} (h : run code e c st ≠ .stuck) :
    ∃ s F, e.sig = some s ∧ c.convert s = some F := by
  cases e <;> (unfold run at h; obtain ⟨s, F, h1, h2, _⟩ := enter_some h; exact ⟨s, F, h1, h2⟩)

/-- The calls follow the ways. -/
inductive Follows (c : Full W R K T V S) :
    List (Option (Nat × List (Sig W K T))) → List (Nat × Full W R K T V S) → Prop where
  | nil : Follows c [] []
  | cons {id : Nat} {l : List (Sig W K T)} {c' : Full W R K T V S} {w q} :
      Made c l c' → Follows c w q → Follows c (some (id, l) :: w) ((id, c') :: q)

theorem Follows.append {c : Full W R K T V S} {w w' q q'} (h : Follows c w q) (h' : Follows c w' q') :
    Follows c (w ++ w') (q ++ q') := by
  induction h with
  | nil => exact h'
  | cons m _ ih => exact .cons m ih

theorem Follows.via {c : Full W R K T V S} {s : Sig W K T} {F : S → Full W R K T V S × S}
    (h : c.convert s = some F) {st : S} {w q} (k : Follows (F st).1 w q) : Follows c (w.map (via s)) q := by
  induction k with
  | nil => exact .nil
  | cons m _ ih => exact .cons (.step st h m) ih

theorem Follows.get {c : Full W R K T V S} {w q} (h : Follows c w q) {i id : Nat} {c' : Full W R K T V S}
    (hi : q[i]? = some (id, c')) : ∃ l, w[i]? = some (some (id, l)) ∧ Made c l c' := by
  induction h generalizing i with
  | nil => cases hi
  | cons m _ ih =>
    cases i with
    | zero =>
      simp only [List.getElem?_cons_zero, Option.some.injEq, Prod.mk.injEq] at hi
      obtain ⟨rfl, rfl⟩ := hi
      exact ⟨_, rfl, m⟩
    | succ i => exact ih hi

/-- A call that returns calls all functions; one that throws has called those before a null effect. -/
theorem run_follows (e : Eff W K T) : ∀ (c : Full W R K T V S) (st : S),
    (∀ l st', run code e c st = .done l st' → Follows c e.ways l) ∧
    (∀ l st', run code e c st = .threw l st' → ∃ w w', e.ways = w ++ none :: w' ∧ Follows c w l) := by
  induction e with
  | fn id s =>
    intro c st
    constructor
    · intro l st' h
      have hn : run code (.fn id s) c st ≠ .stuck := by rw [h]; nofun
      unfold run at h hn
      obtain ⟨t, F, h1, h2, h3⟩ := enter_some hn
      rw [h3] at h
      cases h
      have : t = s := by
        simp only [Eff.sig] at h1
        split at h1
        · cases h1; rfl
        · cases h1
      subst this
      exact .cons (.step st h2 (.nil _)) .nil
    · intro l st' h
      have hn : run code (.fn id s) c st ≠ .stuck := by rw [h]; nofun
      unfold run at h hn
      obtain ⟨t, F, h1, h2, h3⟩ := enter_some hn
      rw [h3] at h
      cases h
  | null s =>
    intro c st
    constructor
    · intro l st' h
      have hn : run code (.null s) c st ≠ .stuck := by rw [h]; nofun
      unfold run at h hn
      obtain ⟨t, F, h1, h2, h3⟩ := enter_some hn
      rw [h3] at h
      cases h
    · intro l st' h
      have hn : run code (.null s) c st ≠ .stuck := by rw [h]; nofun
      unfold run at h hn
      obtain ⟨t, F, h1, h2, h3⟩ := enter_some hn
      rw [h3] at h
      cases h
      exact ⟨[], [], rfl, .nil⟩
  | conv s e ih =>
    intro c st
    constructor
    · intro l st' h
      have hn : run code (.conv s e) c st ≠ .stuck := by rw [h]; nofun
      unfold run at h hn
      obtain ⟨t, F, h1, h2, h3⟩ := enter_some hn
      rw [h3] at h
      obtain ⟨rfl, _⟩ := conv_sig h1
      exact ((ih _ _).1 _ _ h).via h2
    · intro l st' h
      have hn : run code (.conv s e) c st ≠ .stuck := by rw [h]; nofun
      unfold run at h hn
      obtain ⟨t, F, h1, h2, h3⟩ := enter_some hn
      rw [h3] at h
      obtain ⟨rfl, _⟩ := conv_sig h1
      obtain ⟨w, w', h4, h5⟩ := (ih _ _).2 _ _ h
      exact ⟨w.map (Effect.via t), w'.map (Effect.via t), by simp [Eff.ways, h4, Effect.via], h5.via h2⟩
  | seq a b iha ihb =>
    intro c st
    constructor
    · intro l st' h
      have hn : run code (.seq a b) c st ≠ .stuck := by rw [h]; nofun
      unfold run at h hn
      obtain ⟨t, F, h1, h2, h3⟩ := enter_some hn
      rw [h3] at h
      have hw : (Eff.seq a b).ways = (a.ways ++ b.ways).map (Effect.via t) := by
        simp only [Eff.ways, h1]
      rw [hw]
      cases ha : run code a (F st).1 (F st).2 with
      | stuck => rw [ha] at h; cases h
      | threw l1 st1 => rw [ha] at h; cases h
      | done l1 st1 =>
        rw [ha] at h
        simp only [Out.andThen] at h
        cases hb : run code b (F st).1 st1 with
        | stuck => rw [hb] at h; cases h
        | threw l2 st2 => rw [hb] at h; cases h
        | done l2 st2 =>
          rw [hb] at h
          cases h
          exact (((iha _ _).1 _ _ ha).append ((ihb _ _).1 _ _ hb)).via h2
    · intro l st' h
      have hn : run code (.seq a b) c st ≠ .stuck := by rw [h]; nofun
      unfold run at h hn
      obtain ⟨t, F, h1, h2, h3⟩ := enter_some hn
      rw [h3] at h
      have hw : (Eff.seq a b).ways = (a.ways ++ b.ways).map (Effect.via t) := by
        simp only [Eff.ways, h1]
      rw [hw]
      cases ha : run code a (F st).1 (F st).2 with
      | stuck => rw [ha] at h; cases h
      | threw l1 st1 =>
        rw [ha] at h
        cases h
        obtain ⟨w, w', h4, h5⟩ := (iha _ _).2 _ _ ha
        exact ⟨w.map (Effect.via t), (w' ++ b.ways).map (Effect.via t), by simp [h4, Effect.via], h5.via h2⟩
      | done l1 st1 =>
        rw [ha] at h
        simp only [Out.andThen] at h
        cases hb : run code b (F st).1 st1 with
        | stuck => rw [hb] at h; cases h
        | done l2 st2 => rw [hb] at h; cases h
        | threw l2 st2 =>
          rw [hb] at h
          cases h
          obtain ⟨w, w', h4, h5⟩ := (ihb _ _).2 _ _ hb
          refine ⟨(a.ways ++ w).map (Effect.via t), w'.map (Effect.via t), by simp [h4, Effect.via], ?_⟩
          exact (((iha _ _).1 _ _ ha).append h5).via h2

/-- The ways end with what the functions take. -/
theorem ways_plan {e : Eff W K T} {s : Sig W K T} (h : e.sig = some s) :
    e.plan = e.ways.map (Option.map fun x => (x.1, x.2.getLast?.getD ⟨[], []⟩)) ∧
    ∀ id l, some (id, l) ∈ e.ways → l ≠ [] ∧ ∀ t ∈ l, t.ok := by
  have hv : ∀ (t : Sig W K T) (w : List (Option (Nat × List (Sig W K T)))),
      (∀ id l, some (id, l) ∈ w → l ≠ [] ∧ ∀ t ∈ l, t.ok) → t.ok →
      (w.map (via t)).map (Option.map fun x => (x.1, x.2.getLast?.getD ⟨[], []⟩)) =
        w.map (Option.map fun x => (x.1, x.2.getLast?.getD ⟨[], []⟩)) ∧
      ∀ id l, some (id, l) ∈ w.map (via t) → l ≠ [] ∧ ∀ t ∈ l, t.ok := by
    intro t w hw ht
    constructor
    · rw [List.map_map]
      apply List.map_congr_left
      intro x hx
      cases x with
      | none => rfl
      | some x =>
        obtain ⟨id, l⟩ := x
        have := (hw id l hx).1
        cases l with
        | nil => exact absurd rfl this
        | cons y l => simp [via, List.getLast?_cons]
    · intro id l hl
      obtain ⟨x, hx, hxl⟩ := List.mem_map.1 hl
      cases x with
      | none => cases hxl
      | some x =>
        obtain ⟨id', l'⟩ := x
        simp only [via, Option.map_some, Option.some.injEq, Prod.mk.injEq] at hxl
        obtain ⟨rfl, rfl⟩ := hxl
        refine ⟨nofun, ?_⟩
        intro u hu
        rcases List.mem_cons.1 hu with rfl | hu
        · exact ht
        · exact (hw _ _ hx).2 u hu
  induction e generalizing s with
  | fn id t =>
    have hk := sig_ok h
    refine ⟨rfl, ?_⟩
    intro id' l hl
    simp only [Eff.ways, List.mem_singleton, Option.some.injEq, Prod.mk.injEq] at hl
    obtain ⟨rfl, rfl⟩ := hl
    refine ⟨nofun, fun u hu => ?_⟩
    rw [List.mem_singleton] at hu
    subst hu
    simp only [Eff.sig] at h
    split at h
    · assumption
    · cases h
  | null t => exact ⟨rfl, fun id l hl => by simp [Eff.ways] at hl⟩
  | conv t e ih =>
    have hk := sig_ok h
    obtain ⟨rfl, s', h1, _⟩ := conv_sig h
    obtain ⟨i1, i2⟩ := ih h1
    obtain ⟨k1, k2⟩ := hv s e.ways i2 hk
    exact ⟨by simp only [Eff.plan, Eff.ways]; rw [k1, i1], k2⟩
  | seq a b iha ihb =>
    have hk := sig_ok h
    obtain ⟨s1, s2, h1, h2, rfl, _, _⟩ := seq_sig h
    obtain ⟨i1, i2⟩ := iha h1
    obtain ⟨j1, j2⟩ := ihb h2
    obtain ⟨k1, k2⟩ := hv (joined s1 s2) (a.ways ++ b.ways) (fun id l hl => by
      rcases List.mem_append.1 hl with hl | hl
      · exact i2 _ _ hl
      · exact j2 _ _ hl) hk
    have hw : (Eff.seq a b).ways = (a.ways ++ b.ways).map (via (joined s1 s2)) := by
      simp only [Eff.ways, h]
    rw [hw]
    exact ⟨by rw [k1, List.map_append, ← i1, ← j1]; rfl, k2⟩

/-- A call that a function gets. -/
theorem call_made {e : Eff W K T} {c : Full W R K T V S} {st : S} {i id : Nat} {c' : Full W R K T V S}
    (hi : (run code e c st).calls[i]? = some (id, c')) :
    ∃ l, e.ways[i]? = some (some (id, l)) ∧ Made c l c' ∧ l ≠ [] ∧ ∀ t ∈ l, t.ok := by
  cases hr : run code e c st with
  | stuck => rw [hr] at hi; cases hi
  | done l st' =>
    obtain ⟨s, F, h1, _⟩ := run_some (code := code) (e := e) (c := c) (st := st) (by rw [hr]; nofun)
    rw [hr] at hi
    obtain ⟨w, h2, h3⟩ := ((run_follows e c st).1 _ _ hr).get hi
    exact ⟨w, h2, h3, (ways_plan h1).2 id w (List.mem_of_getElem? h2)⟩
  | threw l st' =>
    obtain ⟨s, F, h1, _⟩ := run_some (code := code) (e := e) (c := c) (st := st) (by rw [hr]; nofun)
    rw [hr] at hi
    obtain ⟨w, w', h4, h5⟩ := (run_follows e c st).2 _ _ hr
    obtain ⟨l, h2, h3⟩ := h5.get hi
    have h6 : e.ways[i]? = some (some (id, l)) := by
      rw [h4, List.getElem?_append_left (List.getElem?_eq_some_iff.1 h2).1, h2]
    exact ⟨l, h6, h3, (ways_plan h1).2 id l (List.mem_of_getElem? h6)⟩

theorem Follows.plan {c : Full W R K T V S} {w q} (h : Follows c w q)
    (hw : ∀ id l, some (id, l) ∈ w → l ≠ []) :
    w.map (Option.map fun x => (x.1, x.2.getLast?.getD ⟨[], []⟩)) =
      q.map fun x => some (x.1, x.2.sig) := by
  induction h with
  | nil => rfl
  | @cons id l c' w q m _ ih =>
    rw [List.map_cons, List.map_cons, ih fun id l h => hw id l (List.mem_cons_of_mem _ h)]
    congr 1
    have := m.sig
    have hl := hw id l List.mem_cons_self
    cases l with
    | nil => exact absurd rfl hl
    | cons s l =>
      rw [List.getLast?_cons] at this
      simp only [Option.map_some, List.getLast?_cons]
      simp only [Option.getD_some] at this ⊢
      rw [this]

/-! ### C105 -/

/-- C105: if an effect compiles, so do calls of it with every context that can be converted to its type: also the
conversions inside of it. -/
theorem C105_runs {e : Eff W K T} {s : Sig W K T} (h : e.sig = some s) {c : Full W R K T V S}
    (hc : fits s c.sig = true) (st : S) : run code e c st ≠ .stuck := by
  induction e generalizing s c st with
  | fn id t =>
    obtain ⟨F, hF⟩ := convert_some hc
    unfold run
    rw [h, enter_eq hF]
    nofun
  | null t =>
    obtain ⟨F, hF⟩ := convert_some hc
    unfold run
    rw [h, enter_eq hF]
    nofun
  | conv t e ih =>
    obtain ⟨F, hF⟩ := convert_some hc
    unfold run
    rw [h, enter_eq hF]
    obtain ⟨rfl, s', h1, h2⟩ := conv_sig h
    exact ih h1 (by rw [convert_sig hF]; exact h2) _
  | seq a b iha ihb =>
    obtain ⟨F, hF⟩ := convert_some hc
    unfold run
    rw [h, enter_eq hF]
    obtain ⟨s1, s2, h1, h2, rfl, h3, h4⟩ := seq_sig h
    have ha := iha h1 (c := (F st).1) (by rw [convert_sig hF]; exact h3) (F st).2
    cases hr : run code a (F st).1 (F st).2 with
    | stuck => exact absurd hr ha
    | threw l st1 => nofun
    | done l st1 =>
      have hb := ihb h2 (c := (F st).1) (by rw [convert_sig hF]; exact h4) st1
      simp only [Out.andThen]
      cases hr' : run code b (F st).1 st1 with
      | stuck => exact absurd hr' hb
      | threw l' st2 => nofun
      | done l' st2 => nofun

/-- C105: its functions are called once each, in order, with contexts of the types that they take.  Only if one of the
parts is null the call throws, after the functions before it. -/
theorem C105_order {e : Eff W K T} {s : Sig W K T} (h : e.sig = some s) {c : Full W R K T V S}
    (hc : fits s c.sig = true) (st : S) :
    (none ∉ e.plan → ∃ l st', run code e c st = .done l st' ∧ e.plan = l.map fun x => some (x.1, x.2.sig)) ∧
    (none ∈ e.plan → ∃ l st' w, run code e c st = .threw l st' ∧
      e.plan = (l.map fun x => some (x.1, x.2.sig)) ++ none :: w) := by
  obtain ⟨h1, h2⟩ := ways_plan h
  cases hr : run code e c st with
  | stuck => exact absurd hr (C105_runs h hc st)
  | done l st' =>
    have h3 := (run_follows e c st).1 _ _ hr
    have h4 : e.plan = l.map fun x => some (x.1, x.2.sig) := by
      rw [h1]; exact h3.plan fun id l hl => (h2 id l hl).1
    refine ⟨fun _ => ⟨l, st', rfl, h4⟩, fun hn => ?_⟩
    rw [h4] at hn
    obtain ⟨x, _, hx⟩ := List.mem_map.1 hn
    cases hx
  | threw l st' =>
    obtain ⟨w, w', h3, h4⟩ := (run_follows e c st).2 _ _ hr
    have h5 : e.plan = (l.map fun x => some (x.1, x.2.sig)) ++
        none :: w'.map (Option.map fun x => (x.1, x.2.getLast?.getD ⟨[], []⟩)) := by
      rw [h1, h3, List.map_append, h4.plan fun id l hl => (h2 id l (by
        rw [h3]; exact List.mem_append_left _ hl)).1]
      rfl
    refine ⟨fun hn => ?_, fun _ => ⟨l, st', _, rfl, h5⟩⟩
    exact absurd (by rw [h5]; exact List.mem_append_right _ List.mem_cons_self) hn

/-- C105: what a function dispatches is dispatched to the store: every action that it may dispatch, after implicit
conversions, and its context is for the loop of the store.  If conversions to the actions of the store do not depend on
the way, that is what dispatching the action on the context of the store does. -/
theorem C105_dispatch {e : Eff W K T} {c : Full W R K T V S} {st : S} {z : W.Ty} {g : W.Val z → R} {lp : Nat}
    (hc : c.ctx = .root z g lp) {i id : Nat} {c' : Full W R K T V S}
    (hi : (run code e c st).calls[i]? = some (id, c')) :
    c'.ctx.loop = lp ∧
    (∀ x ∈ c'.sig.actions, ∀ v, ∃ r, Context.dispatch c'.ctx.dispatcher x v = some r) ∧
    ∀ x v r, Context.dispatch c'.ctx.dispatcher x v = some r →
      (∃ f, Path x z f ∧ r = g (f v)) ∧
      (W.coherent z → Context.dispatch c.ctx.dispatcher x v = some r) := by
  obtain ⟨l, _, hm, _⟩ := call_made hi
  have h0 : Sends g lp c.ctx := by
    rw [hc]
    refine ⟨rfl, fun t fn h => ?_⟩
    simp only [Ctx.root, List.mem_singleton] at h
    cases h
    exact ⟨fun v => v, .refl z, rfl⟩
  have h1 := hm.sends h0
  refine ⟨h1.1, fun x hx v => ?_, fun x v r hr => ?_⟩
  · obtain ⟨fn, _, h⟩ := Context.dispatch_exact hx v
    exact ⟨_, h⟩
  · obtain ⟨t, fn, cv, h2, h3, rfl⟩ := Context.dispatch_fn hr
    obtain ⟨f, h4, rfl⟩ := h1.2 _ _ h2
    have h5 : Path x z (f ∘ cv) := .step h3 h4
    refine ⟨⟨_, h5, rfl⟩, fun hz => ?_⟩
    have h6 := h5.coherent hz
    rw [hc]
    unfold Context.dispatch
    simp only [Ctx.root, List.find?_cons, List.find?_nil]
    by_cases hx : z = x
    · subst hx
      simp only [decide_true]
      rw [h6]; rfl
    · simp only [hx, decide_false, List.filter_cons, List.filter_nil, h6, Option.isSome_some, if_true]
      rfl

/-- C105: a function sees the dependencies of the store.  Those that it requires are there, and `get` does what it
does on the context of the store.  (Lazy references may have been called already, see C58.) -/
theorem C105_required {e : Eff W K T} {c : Full W R K T V S} (hc : c.good) {st : S} {i id : Nat}
    {c' : Full W R K T V S} (hi : (run code e c st).calls[i]? = some (id, c')) {k : K} {s : Shape T}
    (hk : (k, s) ∈ c'.sig.deps) (hr : s.required = true) :
    ∃ s' x, Has c.deps k s' x ∧ s'.required = true ∧
      ((∀ t, s' ≠ .fn (.ref t)) → ∀ st1, Deps.get k c'.deps st1 = Deps.get k c.deps st1) := by
  obtain ⟨l, _, hm, _, hl⟩ := call_made hi
  obtain ⟨h1, s', x, h2, h3⟩ := hm.required hk hr
  exact ⟨s', x, h2, h3, fun hs st1 => hm.get hc hl h2 hs h1 st1⟩

/-- C105: the same holds for optional ones if all types of effects around the function list them; else they are absent:
`get` throws. -/
theorem C105_optional {e : Eff W K T} {c : Full W R K T V S} (hc : c.good) {st : S} {i id : Nat}
    {c' : Full W R K T V S} (hi : (run code e c st).calls[i]? = some (id, c')) {k : K} {s s' : Shape T}
    (hk : (k, s) ∈ c'.sig.deps) {x : Stored V S} (hx : Has c.deps k s' x) (hs : ∀ t, s' ≠ .fn (.ref t)) :
    ∃ l, e.ways[i]? = some (some (id, l)) ∧
      ((∀ t ∈ l, ∃ s, (k, s) ∈ t.deps) → ∀ st1, Deps.get k c'.deps st1 = Deps.get k c.deps st1) ∧
      ((∃ t ∈ l, ∀ s, (k, s) ∉ t.deps) → ∀ st1, Deps.get k c'.deps st1 = some (.missing, st1) ∨
        Deps.get k c'.deps st1 = some (.badCall, st1)) := by
  obtain ⟨l, h1, hm, _, hl⟩ := call_made hi
  refine ⟨l, h1, fun h st1 => hm.get hc hl hx hs h st1, ?_⟩
  rintro ⟨t, ht, hn⟩ st1
  refine (hm.lost hc hl ht hn st1).resolve_left ?_
  obtain ⟨y, e', m1, m2, _⟩ := specs_has.1 hk
  have hf := Deps.find_of_mem (hm.good hc hl).1.1 m1
  rw [m2] at hf
  simp [Deps.get, hf]

theorem takes_same (s : Shape T) : takes s s = true := by
  rw [← extract_takes (V := Unit) (S := Unit), Deps.extract_same]; rfl

omit [DecidableEq K] [DecidableEq T] in
theorem mem_required {k : K} {ss : Specs K T} : k ∈ Deps.required ss ↔ ∃ s, (k, s) ∈ ss ∧ s.required = true := by
  simp [Deps.required]

omit [DecidableEq T] in
theorem specs_find {ss : Specs K T} (hn : (ss.map (·.1)).Nodup) {k : K} {s : Shape T} (h : (k, s) ∈ ss) :
    ss.find? (fun y => y.1 = k) = some (k, s) := by
  induction ss with
  | nil => cases h
  | cons y ss ih =>
    simp only [List.map_cons, List.nodup_cons] at hn
    rcases List.mem_cons.1 h with rfl | h
    · simp
    · have : y.1 ≠ k := by
        rintro rfl
        exact hn.1 (List.mem_map.2 ⟨_, h, rfl⟩)
      rw [List.find?_cons_of_neg (by simpa using this)]
      exact ih hn.2 h

omit [DecidableEq T] in
theorem mem_union {a b : Specs K T} {k : K} {s : Shape T} : (k, s) ∈ Deps.unionSpecs a b ↔
    (k, s) ∈ b ∨ (k, s) ∈ a ∧ ∀ s', (k, s') ∉ b := by
  simp only [Deps.unionSpecs, List.mem_append, List.mem_filter, Option.isNone_iff_eq_none, List.find?_eq_none,
    decide_eq_true_eq]
  constructor
  · rintro (h | ⟨h1, h2⟩)
    · exact .inl h
    · exact .inr ⟨h1, fun s' hs => h2 _ hs rfl⟩
  · rintro (h | ⟨h1, h2⟩)
    · exact .inl h
    · exact .inr ⟨h1, fun y hy hk => h2 y.2 (by rw [← hk]; exact hy)⟩

/-- C105: `sequence(a, b)` compiles if and only if both have actions, and each dependency of both can be made, as `a`
specifies it, from what `b` specifies, and is required in `b` if it is in `a`. -/
theorem C105_sequence {a b : Eff W K T} {s s' : Sig W K T} (ha : a.sig = some s) (hb : b.sig = some s') :
    (∃ t, (Eff.seq a b).sig = some t) ↔ s.actions ≠ [] ∧ s'.actions ≠ [] ∧
      ∀ k x y, (k, x) ∈ s.deps → (k, y) ∈ s'.deps →
        takes x y = true ∧ (x.required = true → y.required = true) := by
  have oka := sig_ok ha
  have okb := sig_ok hb
  have hok := joined_ok oka okb
  have hnd : ((Deps.unionSpecs s.deps s'.deps).map (·.1)).Nodup := hok.2
  obtain ⟨c1, c2⟩ := Context.C57_compatible W s.actions s'.actions
  have f2 : fits s' (joined s s') = true := by
    simp only [fits, joined, c2, Bool.true_and, depsFit, Bool.and_eq_true, List.all_eq_true]
    constructor
    · intro k hk
      obtain ⟨x, h1, h2⟩ := mem_required.1 hk
      exact decide_eq_true <| mem_required.2 ⟨x, mem_union.2 (.inl h1), h2⟩
    · rintro ⟨k, x⟩ hx
      simp only [found]
      rw [specs_find hnd (mem_union.2 (.inl hx))]
      exact takes_same x
  have f1 : fits s (joined s s') = true ↔ ∀ k x y, (k, x) ∈ s.deps → (k, y) ∈ s'.deps →
        takes x y = true ∧ (x.required = true → y.required = true) := by
    simp only [fits, joined, c1, Bool.true_and, depsFit, Bool.and_eq_true, List.all_eq_true]
    constructor
    · rintro ⟨h1, h2⟩ k x y hx hy
      constructor
      · have := h2 _ hx
        simp only [found] at this
        rwa [specs_find hnd (mem_union.2 (.inl hy))] at this
      · intro hr
        obtain ⟨z, h3, h4⟩ := mem_required.1 (of_decide_eq_true <| h1 k (mem_required.2 ⟨x, hx, hr⟩))
        rcases mem_union.1 h3 with h3 | ⟨_, h3⟩
        · have := (specs_find okb.2 h3).symm.trans (specs_find okb.2 hy)
          simp only [Option.some.injEq, Prod.mk.injEq, true_and] at this
          rw [← this]; exact h4
        · exact absurd hy (h3 y)
    · intro h
      constructor
      · intro k hk
        obtain ⟨x, h1, h2⟩ := mem_required.1 hk
        by_cases hy : ∃ y, (k, y) ∈ s'.deps
        · obtain ⟨y, hy⟩ := hy
          exact decide_eq_true <| mem_required.2 ⟨y, mem_union.2 (.inl hy), (h k x y h1 hy).2 h2⟩
        · exact decide_eq_true <| mem_required.2 ⟨x, mem_union.2 (.inr ⟨h1, fun y h => hy ⟨y, h⟩⟩), h2⟩
      · rintro ⟨k, x⟩ hx
        simp only [found]
        by_cases hy : ∃ y, (k, y) ∈ s'.deps
        · obtain ⟨y, hy⟩ := hy
          rw [specs_find hnd (mem_union.2 (.inl hy))]
          exact (h k x y hx hy).1
        · rw [specs_find hnd (mem_union.2 (.inr ⟨hx, fun y h => hy ⟨y, h⟩⟩))]
          exact takes_same x
  simp only [Eff.sig, ha, hb, Option.bind_some]
  rw [← f1]
  constructor
  · rintro ⟨t, ht⟩
    split at ht
    · rename_i h; exact ⟨h.1, h.2.1, h.2.2.1⟩
    · cases ht
  · rintro ⟨h1, h2, h3⟩
    rw [if_pos ⟨h1, h2, h3, f2⟩]
    exact ⟨_, rfl⟩

/-! ### Examples -/

open Verif.Context (exWorld ExTy)

deriving instance DecidableEq for Sig

instance : DecidableEq exWorld.Ty := exWorld.eq

abbrev ExSig := Sig exWorld Nat Nat
abbrev ExFull := Full exWorld Nat Nat Nat Nat Nat

/-- A store with actions `any`, a required dependency 1, a required reference 2 and a value 4. -/
def exStore : ExFull :=
  ⟨.root (.any : ExTy) (fun v => v) 3, [⟨1, .val 1, .val 42⟩, ⟨2, .ref 2, .ref 7⟩, ⟨4, .val 4, .val 5⟩]⟩

theorem exStore_good : exStore.good := by
  refine ⟨⟨by decide, by simp [exStore, Stored.fits]⟩, ?_⟩
  intro k t x h
  simp [Has, exStore] at h

/-- Functions of nested reducers: one for actions `a`, which requires 1, one for actions `b`, which wants 4 if it is
there, and one for actions `mid` that wants both. -/
def exA : ExSig := ⟨[(.a : ExTy)], [(1, .val 1)]⟩
def exB : ExSig := ⟨[(.b : ExTy)], [(4, .opt (.val 4))]⟩
def exMid : ExSig := ⟨[(.mid : ExTy)], [(1, .val 1), (4, .opt (.val 4))]⟩
def exTop : ExSig := ⟨[(.any : ExTy)], [(1, .val 1), (2, .ref 2), (4, .val 4)]⟩
/-- A type of effect that does not say that 4 is wanted. -/
def exNarrow : ExSig := ⟨[(.mid : ExTy)], [(1, .val 1)]⟩

def exEff : Eff exWorld Nat Nat :=
  .conv exTop (.seq (.conv exMid (.seq (.fn 0 exA) (.fn 1 exB))) (.conv exNarrow (.fn 2 exB)))

/-- What a call shows: for each function its number, what dispatching `b` with 5 gives, and its dependencies 1
and 4. -/
def exShow (o : Out exWorld Nat Nat Nat Nat Nat) :
    List ((Nat × Option Nat) × List (Option (Deps.Got Nat × Nat))) :=
  o.calls.map fun x => ((x.1, Context.dispatch x.2.ctx.dispatcher (.b : ExTy) (5 : Nat)),
    [Deps.get 1 x.2.deps 0, Deps.get 4 x.2.deps 0])

def exCode (id : Nat) (_ : ExFull) (n : Nat) : Nat := 10 * n + id

example : exEff.sig = some exTop ∧ fits exTop exStore.sig = true := by decide +kernel

example : exShow (run exCode exEff exStore 0) =
    [((0, none), [some (.value 42, 0), none]), ((1, some 111), [none, some (.value 5, 0)]),
      ((2, some 111), [none, some (.missing, 0)])] := by decide +kernel

example : exStore.good ∧ exWorld.coherent (.any : ExTy) := by
  exact ⟨exStore_good, Context.exWorld_coherent⟩

/-- A null effect in a sequence: the function before it has been called, the one after it is not. -/
example : (run exCode (.seq (.fn 0 exA) (.seq (.null exA) (.fn 1 exA))) exStore 0).calls.map (·.1) = [0] ∧
    (Eff.seq (.fn 0 exA) (.seq (.null exA) (.fn 1 exA))).sig.isSome = true := by decide +kernel

/-- C105: a function that wants an optional dependency which the store has does not get it when an effect in between
is of a type that does not list it. -/
theorem C105_optional_false : ∃ (e : Eff exWorld Nat Nat) (c : ExFull) (c' : ExFull) (id : Nat),
    c.good ∧ (run exCode e c 0).calls = [(id, c')] ∧ (4, .opt (.val 4)) ∈ c'.sig.deps ∧
    Deps.get 4 c.deps 0 = some (.value 5, 0) ∧ Deps.get 4 c'.deps 0 = some (.missing, 0) := by
  have h : ((run exCode (.conv exNarrow (.fn 2 exB)) exStore 0).calls.map fun x =>
      (x.1, x.2.sig.deps, Deps.get 4 x.2.deps 0)) = [(2, [(4, .opt (.val 4))], some (.missing, 0))] := by
    decide +kernel
  cases hc : (run exCode (.conv exNarrow (.fn 2 exB)) exStore 0).calls with
  | nil => rw [hc] at h; cases h
  | cons x l =>
    rw [hc] at h
    simp only [List.map_cons, List.cons.injEq, Prod.mk.injEq, List.map_eq_nil_iff] at h
    obtain ⟨⟨h1, h2, h3⟩, rfl⟩ := h
    refine ⟨_, exStore, x.2, x.1, exStore_good, hc, ?_, by decide, h3⟩
    rw [h2]; exact List.mem_singleton.2 rfl

/-- C105: the order matters: if `a` requires what `b` wants if it is there, then `sequence(a, b)` does not compile, but
`sequence(b, a)` does.  And effects that dispatch nothing cannot be put in sequence. -/
theorem C105_sequence_false :
    (∃ a b : Eff exWorld Nat Nat, a.sig.isSome = true ∧ b.sig.isSome = true ∧ (Eff.seq a b).sig = none ∧
      (Eff.seq b a).sig.isSome = true) ∧
    ∃ a : Eff exWorld Nat Nat, a.sig.isSome = true ∧ (Eff.seq a a).sig = none :=
  ⟨⟨.fn 0 ⟨[(.a : ExTy)], [(1, .val 1)]⟩, .fn 1 ⟨[(.a : ExTy)], [(1, .opt (.val 1))]⟩, by decide +kernel⟩,
    .fn 0 ⟨[], []⟩, by decide +kernel⟩

end Verif.Effect
