import Verif.With.Spec
import Verif.Graph.Evolve
import Verif.Graph.Zoom

/-!
The nodes that `with` expressions make.
-/

set_option linter.unusedSectionVars false

namespace Verif.With

open Verif.Graph (M Op Graph Node Inv WF Runs)

variable {V S : Type}

theorem look_append (l1 l2 : List (Part V)) (x : V) : look (l1 ++ l2) x = (look l1 x).bind (look l2) := by
  induction l1 generalizing x with
  | nil => rfl
  | cons s l ih =>
    simp only [List.cons_append, look]
    cases s.look x with
    | none => rfl
    | some y => exact ih y

theorem put_append (l1 l2 : List (Part V)) (x v : V) :
    put (l1 ++ l2) x v = (look l1 x).bind fun y => (put l2 y v).bind (put l1 x) := by
  induction l1 generalizing x with
  | nil => simp [put, look]
  | cons s l ih =>
    simp only [List.cons_append, look, put]
    cases s.look x with
    | none => rfl
    | some y =>
      simp only [Option.bind_some]
      rw [ih y]
      cases look l y with
      | none => rfl
      | some z => simp only [Option.bind_some, Option.bind_assoc]

theorem look_one (s : Part V) (x : V) : look [s] x = s.look x := by
  simp only [look]; cases s.look x <;> rfl

theorem put_one (s : Part V) (x v : V) : put [s] x v = (s.look x).bind fun _ => s.put x v := by
  simp only [put, Option.bind_some]

theorem isSome_bind {α β : Type} {o : Option α} {f : α → Option β} (h : (o.bind f).isSome = true) :
    ∃ y, o = some y ∧ (f y).isSome = true := by
  cases o with
  | none => cases h
  | some y => exact ⟨y, rfl, h⟩

theorem look_steps (l : List (Part V)) (x : V) : look (steps l) x = look l x := by
  induction l generalizing x with
  | nil => rfl
  | cons s l ih =>
    cases s with
    | make => exact ih x
    | zoom _ _ _ =>
      show (Part.look _ x).bind (look (steps l)) = _
      rw [show look (steps l) = look l from funext ih]; rfl
    | xform _ _ =>
      show (Part.look _ x).bind (look (steps l)) = _
      rw [show look (steps l) = look l from funext ih]; rfl
    | xform2 _ _ _ =>
      show (Part.look _ x).bind (look (steps l)) = _
      rw [show look (steps l) = look l from funext ih]; rfl

theorem put_steps (l : List (Part V)) (x v : V) : put (steps l) x v = put l x v := by
  induction l generalizing x with
  | nil => rfl
  | cons s l ih =>
    cases s with
    | make =>
      show put (steps l) x v = (put l x v).bind some
      rw [ih x]
      cases put l x v <;> rfl
    | zoom _ _ _ =>
      show ((Part.look _ x).bind fun y => (put (steps l) y v).bind _) = (Part.look _ x).bind fun y => (put l y v).bind _
      simp only [ih]
    | xform _ _ =>
      show ((Part.look _ x).bind fun y => (put (steps l) y v).bind _) = (Part.look _ x).bind fun y => (put l y v).bind _
      simp only [ih]
    | xform2 _ _ _ =>
      show ((Part.look _ x).bind fun y => (put (steps l) y v).bind _) = (Part.look _ x).bind fun y => (put l y v).bind _
      simp only [ih]

section

variable [DecidableEq V] [Tup V]

/-- What the writing function of a node does. -/
def Puts (l : List (Part V)) (refr : Bool) (k : Nat) (p : List V → V → List V) : Prop :=
  (refr = true → ∀ old v, (look l (tup old)).isSome = true → p old v = parts k (put l (tup old) v)) ∧
  (refr = false → ∀ old x v, (look l x).isSome = true → p old v = parts k (put l x v))

/-- The node `n` applies the steps `l` to the tuple of the values of `ps`. -/
def Seg (g : Graph V S) (ps : List Nat) (n : Nat) (l : List (Part V)) (b s : Bool) : Prop :=
  ∃ view pt refr, (g.node n).kind = .calc view pt refr ∧ (g.node n).parents = ps ∧
    (∀ xs, view xs = look l (tup xs)) ∧ pt.isSome = b ∧
    (b = true → ∀ p ∈ ps, g.canWrite p = true) ∧
    ∀ p, pt = some p → s = true → Puts l refr ps.length p

/-- The node `n` applies the steps `l` to the tuple of the values of `ps`, maybe by several nodes. -/
inductive Made (g : Graph V S) (ps : List Nat) (s : Bool) : Nat → List (Part V) → Bool → Prop where
  | one {n : Nat} {l b} : Seg g ps n l b s → Made g ps s n l b
  | step {n q : Nat} {l1 l2 b1 b} : Made g ps s q l1 b1 → Seg g [q] n l2 b s → (b = true → b1 = true) →
      Made g ps s n (l1 ++ l2) b

/-- What an expression starts from. -/
inductive At (g : Graph V S) (ps : List Nat) (s : Bool) : List Nat → List (Part V) → Bool → Prop where
  | start {b} : At g ps s ps [] b
  | node {q : Nat} {l b} : Made g ps s q l b → At g ps s [q] l b

theorem At.add {g : Graph V S} {ps qs : List Nat} {s : Bool} {n : Nat} {l1 l2 : List (Part V)} {b1 b : Bool}
    (h : At g ps s qs l1 b1) (hs : Seg g qs n l2 b s) (hb : b = true → b1 = true) :
    Made g ps s n (l1 ++ l2) b := by
  cases h with
  | start => exact .one hs
  | node hm => exact .step hm hs hb

theorem Seg.same {g g' : Graph V S} {n : Nat} (hk : (g'.node n).kind = (g.node n).kind)
    (hp : (g'.node n).parents = (g.node n).parents)
    (hc : ∀ p ∈ (g.node n).parents, (g'.node p).kind = (g.node p).kind)
    {ps : List Nat} {l : List (Part V)} {b s : Bool} (h : Seg g ps n l b s) : Seg g' ps n l b s := by
  obtain ⟨view, pt, refr, h1, h2, h3, h4, h5, h6⟩ := h
  refine ⟨view, pt, refr, hk.trans h1, hp.trans h2, h3, h4, fun hb p hpp => ?_, h6⟩
  rw [← h5 hb p hpp]
  unfold Graph.canWrite
  rw [hc p (h2 ▸ hpp)]

theorem Made.same {g g' : Graph V S} {size : Nat} (w : WF g)
    (hk : ∀ n, n < size → (g'.node n).kind = (g.node n).kind)
    (hp : ∀ n, n < size → (g'.node n).parents = (g.node n).parents)
    {ps : List Nat} {s : Bool} {n : Nat} {l : List (Part V)} {b : Bool} (h : Made g ps s n l b) (hn : n < size) :
    Made g' ps s n l b := by
  induction h with
  | one hs => exact .one (hs.same (hk _ hn) (hp _ hn) fun p hpp => hk p (Nat.lt_trans (w.lt _ _ hpp) hn))
  | @step n q l1 l2 b1 b _ hs hb ih =>
    refine .step (ih ?_) (hs.same (hk _ hn) (hp _ hn) fun p hpp => hk p (Nat.lt_trans (w.lt _ _ hpp) hn)) hb
    obtain ⟨_, _, _, _, h2, _⟩ := hs
    exact Nat.lt_trans (w.lt n q (h2 ▸ List.mem_singleton.mpr rfl)) hn

theorem Made.runs [Inhabited S] {m m' : M V S} (h : Runs m m') (hi : Inv m) (hub : m'.ub = false)
    {ps : List Nat} {s : Bool} {n : Nat} {l : List (Part V)} {b : Bool} (hn : n < m.g.size)
    (hm : Made m.g ps s n l b) : Made m'.g ps s n l b :=
  hm.same hi.wf (fun _ hk => (h.const hi hub hk).1) (fun _ hk => (h.const hi hub hk).2.1) hn

/-- The nodes that an expression starts from. -/
def Expr.srcs : Expr V → List Nat
  | .base _ _ ps => ps
  | .xf _ ps _ => ps
  | .wxf _ _ ps _ _ _ => ps
  | .lens _ _ ps _ _ => ps

/-- Is it a `with_wxform_expr`, `with.hpp:316-373`? -/
def Expr.isW : Expr V → Bool
  | .wxf .. => true
  | _ => false

/-- The expression applies the steps `l` to what it starts from. -/
def Expr.Den (e : Expr V) (l : List (Part V)) (s : Bool) : Prop :=
  match e with
  | .base _ _ _ => l = []
  | .xf _ _ d => ∀ x, d x = look l x
  | .wxf _ _ _ d u r => (∀ x, d x = look l x) ∧ (s = true →
      (r = true → ∀ x v, (look l x).isSome = true → u x v = put l x v) ∧
      (r = false → ∀ y x v, (look l x).isSome = true → u y v = put l x v))
  | .lens _ _ _ get set => ∀ x, look l x = some (get x) ∧ ∀ v, put l x v = some (set x v)

theorem newCalc_step [Inhabited S] {m m' : M V S} {cmp : Bool} {ps : List Nat} {view pt refr} {d : V}
    (h : Graph.ustep m (.newCalc cmp ps view pt refr d) = some m') :
    (m'.g.node m.g.size).kind = .calc view pt refr ∧ (m'.g.node m.g.size).parents = ps ∧
    (pt.isSome = true → ∀ p ∈ ps, m'.g.canWrite p = true) ∧ m'.g.size = m.g.size + 1 ∧
    (m'.g.node m.g.size).alive = true ∧ m'.stack = m.stack := by
  unfold Graph.ustep at h
  split at h
  · cases h
  · split at h
    · simp only at h
      split at h
      · rename_i hc
        simp only [Option.some.injEq] at h
        subst h
        have hlt : ∀ p ∈ ps, p < m.g.size := fun p hp => by
          have := List.all_eq_true.mp hc.2.1 p hp
          exact (Graph.valid_alive this).1
        have hnew := Graph.add_new m.g (Graph.freshNode (.calc view pt refr) ps
          ((view (m.g.currents ps)).getD d) cmp default default) hlt
        refine ⟨by rw [hnew]; rfl, by rw [hnew]; rfl, fun hb p hp => ?_, Graph.add_size _ _, by rw [hnew]; rfl, rfl⟩
        have hcw := List.all_eq_true.mp (hc.2.2 hb) p hp
        obtain ⟨k, hk, _⟩ := Graph.add_old m.g (Graph.freshNode (.calc view pt refr) ps
          ((view (m.g.currents ps)).getD d) cmp default default) (n := p) (by have := hlt p hp; omega)
        rw [← hcw]
        unfold Graph.canWrite
        rw [hk]
      · cases h
    · cases h

theorem make_seg [Inhabited S] {m m' : M V S} {e : Expr V} {n : Nat} (h : Expr.make m e = some (m', n))
    {l : List (Part V)} {s : Bool} (hd : e.Den l s) :
    Seg m'.g e.srcs n l e.rw s ∧ n = m.g.size ∧ m'.g.size = m.g.size + 1 ∧ Runs m m' ∧ (m'.g.node n).alive = true ∧
    m'.stack = m.stack ∧ m'.ub = false := by
  unfold Expr.make at h
  split at h
  · rename_i m1 hu
    simp only [Option.some.injEq, Prod.mk.injEq] at h
    obtain ⟨rfl, rfl⟩ := h
    have hrun : Runs m m1 := .step (.user _ hu) (.refl _)
    have hub := (Graph.ustep_ub hu).2
    cases e with
    | base t rw ps =>
      obtain ⟨h1, h2, h3, h4, h5, h6⟩ := newCalc_step hu
      cases hd
      refine ⟨⟨_, _, _, h1, h2, fun xs => rfl, ?_, ?_, ?_⟩, rfl, h4, hrun, h5, h6, hub⟩
      · cases rw <;> rfl
      · intro hb p hp
        simp only [Expr.rw] at hb
        subst hb
        exact h3 rfl p hp
      · intro p hp _
        cases rw with
        | false => cases hp
        | true =>
          cases hp
          exact ⟨fun hr => (nomatch hr), fun _ old x v _ => rfl⟩
    | xf t ps d =>
      obtain ⟨h1, h2, h3, h4, h5, h6⟩ := newCalc_step hu
      refine ⟨⟨_, _, _, h1, h2, fun xs => hd _, rfl, fun hb => (nomatch hb), fun p hp => (nomatch hp)⟩, rfl, h4, hrun, h5, h6, hub⟩
    | wxf t rw ps d u r =>
      obtain ⟨h1, h2, h3, h4, h5, h6⟩ := newCalc_step hu
      refine ⟨⟨_, _, _, h1, h2, fun xs => hd.1 _, ?_, ?_, ?_⟩, rfl, h4, hrun, h5, h6, hub⟩
      · cases rw <;> rfl
      · intro hb p hp
        simp only [Expr.rw] at hb
        subst hb
        exact h3 rfl p hp
      · intro p hp hs
        obtain ⟨hd1, hd2⟩ := hd.2 hs
        cases rw with
        | false => cases hp
        | true =>
          cases hp
          refine ⟨fun hr old v hl => ?_, fun hr old x v hl => ?_⟩
          · rw [← hd1 hr _ v hl]
            show (match u (tup old) v with | some w => untup ps.length w | none => []) = _
            cases u (tup old) v <;> rfl
          · rw [← hd2 hr (tup old) x v hl]
            show (match u (tup old) v with | some w => untup ps.length w | none => []) = _
            cases u (tup old) v <;> rfl
    | lens t rw ps get set =>
      obtain ⟨h1, h2, h3, h4, h5, h6⟩ := newCalc_step hu
      refine ⟨⟨_, _, _, h1, h2, fun xs => (hd _).1.symm, ?_, ?_, ?_⟩, rfl, h4, hrun, h5, h6, hub⟩
      · cases rw <;> rfl
      · intro hb p hp
        simp only [Expr.rw] at hb
        subst hb
        exact h3 rfl p hp
      · intro p hp hs
        cases rw with
        | false => cases hp
        | true =>
          cases hp
          refine ⟨fun _ old v hl => ?_, fun hr => (nomatch hr)⟩
          rw [(hd (tup old)).2 v]
          rfl
  · cases h

/-- What is known of a chain while it is being built. -/
def Ok (m : M V S) (ps : List Nat) (s : Bool) (e : Expr V) (l : List (Part V)) : Prop :=
  ∃ l1 l2 b1, At m.g ps s e.srcs l1 b1 ∧ (e.rw = true → b1 = true) ∧ e.Den l2 s ∧ l1 ++ l2 = l

theorem chain_make [Inhabited S] {m m' : M V S} (hi : Inv m) {ps : List Nat} {s : Bool} {e : Expr V} {n : Nat}
    {l l1 l2 : List (Part V)} {b1 : Bool} (h : Expr.make m e = some (m', n)) (ha : At m.g ps s e.srcs l1 b1)
    (hb : e.rw = true → b1 = true)
    (hd : e.Den l2 s) (hl : l1 ++ l2 = l) : Made m'.g ps s n l e.rw := by
  obtain ⟨h1, h2, h3, h4, h5, h6, h7⟩ := make_seg h hd
  have ha' : At m'.g ps s e.srcs l1 b1 := by
    generalize hqs : e.srcs = qs at ha h1
    cases ha with
    | start => exact .start
    | @node q _ _ hm =>
      refine .node (hm.runs h4 hi h7 ?_)
      obtain ⟨_, _, _, _, k2, _⟩ := h1
      have hi' := h4.inv hi h7
      have := hi'.wf.lt n q (k2 ▸ List.mem_singleton.mpr rfl)
      omega
  rw [← hl]
  exact ha'.add h1 hb

theorem At.runs [Inhabited S] {m m' : M V S} (h : Runs m m') (hi : Inv m) (hub : m'.ub = false)
    {ps qs : List Nat} {s : Bool} {l : List (Part V)} {b : Bool} (hn : ∀ q ∈ qs, q < m.g.size)
    (ha : At m.g ps s qs l b) : At m'.g ps s qs l b := by
  cases ha with
  | start => exact .start
  | node hm => exact .node (hm.runs h hi hub (hn _ (List.mem_singleton.mpr rfl)))

theorem chain_ok [Inhabited S] {m m' : M V S} (hi : Inv m) {ps : List Nat} {s : Bool} {e e' : Expr V} {a : Part V}
    {l : List (Part V)} {k : List (Part V)} (h : chain m e a = some (m', e')) (ho : Ok m ps s e l)
    (hs : s = true → separate e.isW (a :: k) = true) :
    Ok m' ps s e' (l ++ steps [a]) ∧ Inv m' ∧ Runs m m' ∧ m'.stack = m.stack ∧
      (s = true → separate e'.isW k = true) := by
  obtain ⟨l1, l2, b1, ha, hb, hd, hl⟩ := ho
  -- a step that does not make a node
  have keep : ∀ e0 : Expr V, some (m, e0) = some (m', e') → e0.srcs = e.srcs → (e0.rw = true → e.rw = true) →
      e0.Den (l2 ++ steps [a]) s → (s = true → separate e0.isW k = true) →
      Ok m' ps s e' (l ++ steps [a]) ∧ Inv m' ∧ Runs m m' ∧ m'.stack = m.stack ∧
      (s = true → separate e'.isW k = true) := by
    intro e0 h0 h1 h2 h3 h4
    simp only [Option.some.injEq, Prod.mk.injEq] at h0
    obtain ⟨rfl, rfl⟩ := h0
    exact ⟨⟨l1, l2 ++ steps [a], b1, h1 ▸ ha, fun hr => hb (h2 hr), h3, by rw [← hl, List.append_assoc]⟩, hi, .refl _, rfl, h4⟩
  -- a step that makes a node first
  have node : ∀ (f : M V S × Nat → M V S × Expr V) (l3 : List (Part V)),
      ((Expr.make m e).map f) = some (m', e') → (∀ x, (f x).1 = x.1) →
      (∀ x, (f x).2.srcs = [x.2]) → (∀ x, (f x).2.rw = true → e.rw = true) →
      (∀ x, (f x).2.Den l3 s) → (∀ x, s = true → separate (f x).2.isW k = true) → l3 = steps [a] →
      Ok m' ps s e' (l ++ steps [a]) ∧ Inv m' ∧ Runs m m' ∧ m'.stack = m.stack ∧
      (s = true → separate e'.isW k = true) := by
    intro f l3 hm h1 h2 h3 h4 h5 h6
    cases hx : Expr.make m e with
    | none => rw [hx] at hm; cases hm
    | some x =>
      rw [hx, Option.map_some, Option.some.injEq] at hm
      obtain ⟨m1, n⟩ := x
      have hmm : m1 = m' := (h1 (m1, n)).symm.trans (congrArg Prod.fst hm)
      subst hmm
      have hee : (f (m1, n)).2 = e' := congrArg Prod.snd hm
      subst hee
      have hmade := chain_make hi hx ha hb hd hl
      obtain ⟨_, _, _, k4, _, k6, k7⟩ := make_seg hx hd
      refine ⟨⟨l, l3, e.rw, ?_, h3 _, h4 _, by rw [h6]⟩, k4.inv hi k7, k4, k6, h5 _⟩
      rw [h2]
      exact .node hmade
  cases e with
  | base t rw qs =>
    cases hd
    cases a with
    | zoom t' get set => exact keep _ h rfl (fun h => h) (fun x => ⟨rfl, fun v => rfl⟩) hs
    | xform t' f => exact keep _ h rfl (fun h => (nomatch h)) (fun x => (look_one (.xform t' f) x).symm) hs
    | xform2 t' f w =>
      refine keep _ h rfl (fun h => h) ⟨fun x => (look_one (.xform2 t' f w) x).symm, fun _ => ⟨fun hr x v hx => ?_, fun hr y x v hx => ?_⟩⟩ ?_
      · show w.run x v = put [.xform2 t' f w] x v
        rw [put_one]
        have hx' : (look [.xform2 t' f w] x).isSome = true := hx
        rw [look_one] at hx'
        cases hc : Part.look (.xform2 t' f w) x with
        | none => rw [hc] at hx'; cases hx'
        | some y => rfl
      · show w.run y v = put [.xform2 t' f w] x v
        rw [put_one]
        have hx' : (look [.xform2 t' f w] x).isSome = true := hx
        rw [look_one] at hx'
        cases hc : Part.look (.xform2 t' f w) x with
        | none => rw [hc] at hx'; cases hx'
        | some z =>
          cases w with
          | pure u => rfl
          | update u => cases hr
      · intro h1
        have h2 := hs h1
        cases w with
        | pure u => exact h2
        | update u =>
          simp only [separate, Bool.and_eq_true] at h2
          exact h2.2
    | make => exact node _ [] h (fun _ => rfl) (fun _ => rfl) (fun _ h => h) (fun _ => rfl) (fun _ => hs) rfl
  | xf t qs d =>
    cases a with
    | zoom t' get set =>
      refine keep _ h rfl (fun h => h) (fun x => ?_) hs
      show (d x).map get = look (l2 ++ [_]) x
      rw [look_append, ← hd x]
      cases d x with
      | none => rfl
      | some y => exact (look_one (.zoom t' get set) y).symm
    | xform t' f =>
      refine keep _ h rfl (fun h => h) (fun x => ?_) hs
      show (d x).bind f = look (l2 ++ [_]) x
      rw [look_append, ← hd x]
      cases d x with
      | none => rfl
      | some y => exact (look_one (.xform t' f) y).symm
    | xform2 t' f w => cases h
    | make => exact node _ [] h (fun _ => rfl) (fun _ => rfl) (fun _ h => h) (fun _ => rfl) (fun _ => hs) rfl
  | wxf t rw qs d u r =>
    cases a with
    | zoom t' get set =>
      exact node _ [.zoom t' get set] h (fun _ => rfl) (fun _ => rfl) (fun _ h => h) (fun _ x => ⟨rfl, fun v => rfl⟩)
        (fun _ => hs) rfl
    | xform t' f =>
      refine keep _ h rfl (fun h => (nomatch h)) (fun x => ?_) hs
      show (d x).bind f = look (l2 ++ [_]) x
      rw [look_append, ← hd.1 x]
      cases d x with
      | none => rfl
      | some y => exact (look_one (.xform t' f) y).symm
    | xform2 t' f w =>
      have hlook : ∀ x, ((d x).bind f) = look (l2 ++ [.xform2 t' f w]) x := fun x => by
        rw [look_append, ← hd.1 x]
        cases d x with
        | none => rfl
        | some y => exact (look_one (.xform2 t' f w) y).symm
      have hput : s = true → ∃ u2, w = .pure u2 ∧ ∀ x v, (look (l2 ++ [.xform2 t' f w]) x).isSome = true →
          put (l2 ++ [.xform2 t' f w]) x v = (u2 v).bind (put l2 x) ∧ (look l2 x).isSome = true := by
        intro h1
        have h2 := hs h1
        cases w with
        | update u2 => simp [separate, Expr.isW] at h2
        | pure u2 =>
          refine ⟨u2, rfl, fun x v hx => ?_⟩
          rw [look_append] at hx
          obtain ⟨y, hy, hz⟩ := isSome_bind hx
          rw [look_one] at hz
          refine ⟨?_, by rw [hy]; rfl⟩
          rw [put_append, hy]
          simp only [Option.bind_some]
          rw [put_one]
          cases hc : Part.look (.xform2 t' f (.pure u2)) y with
          | none => rw [hc] at hz; cases hz
          | some z => rfl
      refine keep _ h rfl (fun h => h) ⟨hlook, fun h1 => ?_⟩ ?_
      · obtain ⟨u2, rfl, hp⟩ := hput h1
        obtain ⟨hd1, hd2⟩ := hd.2 h1
        refine ⟨fun hr x v hx => ?_, fun hr y x v hx => ?_⟩
        · have hr' : r = true := by simpa [Wr.refreshes] using hr
          obtain ⟨e1, e2⟩ := hp x v hx
          show (u2 v).bind (u x) = _
          refine Eq.trans ?_ e1.symm
          cases u2 v with
          | none => rfl
          | some z => exact hd1 hr' x z e2
        · have hr' : r = false := by simpa [Wr.refreshes] using hr
          obtain ⟨e1, e2⟩ := hp x v hx
          show (u2 v).bind (u y) = _
          refine Eq.trans ?_ e1.symm
          cases u2 v with
          | none => rfl
          | some z => exact hd2 hr' y x z e2
      · intro h1
        obtain ⟨u2, rfl, hp⟩ := hput h1
        exact hs h1
    | make => exact node _ [] h (fun _ => rfl) (fun _ => rfl) (fun _ h => h) (fun _ => rfl) (fun _ => hs) rfl
  | lens t rw qs get0 set0 =>
    cases a with
    | zoom t' get set =>
      refine keep _ h rfl (fun h => h) (fun x => ⟨?_, fun v => ?_⟩) hs
      · rw [look_append, (hd x).1]; rfl
      · rw [put_append, (hd x).1]
        exact (hd x).2 _
    | xform t' f =>
      refine keep _ h rfl (fun h => (nomatch h)) (fun x => ?_) hs
      show f (get0 x) = look (l2 ++ [_]) x
      rw [look_append, (hd x).1]
      exact (look_one (.xform t' f) _).symm
    | xform2 t' f w =>
      cases rw with
      | false => cases h
      | true =>
        refine node _ [.xform2 t' f w] h (fun _ => rfl) (fun _ => rfl) (fun _ _ => rfl)
          (fun _ => ⟨fun x => (look_one (.xform2 t' f w) x).symm, fun _ => ⟨fun hr x v hx => ?_, fun hr y x v hx => ?_⟩⟩) ?_ rfl
        · show w.run x v = put [.xform2 t' f w] x v
          rw [put_one]
          have hx' : (look [.xform2 t' f w] x).isSome = true := hx
          rw [look_one] at hx'
          cases hc : Part.look (.xform2 t' f w) x with
          | none => rw [hc] at hx'; cases hx'
          | some y => rfl
        · show w.run y v = put [.xform2 t' f w] x v
          rw [put_one]
          have hx' : (look [.xform2 t' f w] x).isSome = true := hx
          rw [look_one] at hx'
          cases hc : Part.look (.xform2 t' f w) x with
          | none => rw [hc] at hx'; cases hx'
          | some z =>
            cases w with
            | pure u => rfl
            | update u => cases hr
        · intro _ h1
          have h2 := hs h1
          cases w with
          | pure u => exact h2
          | update u =>
            simp only [separate, Bool.and_eq_true] at h2
            exact h2.2
    | make => exact node _ [] h (fun _ => rfl) (fun _ => rfl) (fun _ h => h) (fun _ => rfl) (fun _ => hs) rfl

theorem chains_ok [Inhabited S] {ps : List Nat} {s : Bool} (k : List (Part V)) :
    ∀ {m m' : M V S} {e e' : Expr V} {l : List (Part V)}, Inv m → chains m e k = some (m', e') → Ok m ps s e l →
      (s = true → separate e.isW k = true) →
      Ok m' ps s e' (l ++ steps k) ∧ Inv m' ∧ Runs m m' ∧ m'.stack = m.stack := by
  induction k with
  | nil =>
    intro m m' e e' l hi h ho hs
    simp only [chains, Option.some.injEq, Prod.mk.injEq] at h
    obtain ⟨rfl, rfl⟩ := h
    exact ⟨by simpa [steps] using ho, hi, .refl _, rfl⟩
  | cons a k ih =>
    intro m m' e e' l hi h ho hs
    simp only [chains] at h
    cases hc : chain m e a with
    | none => rw [hc] at h; cases h
    | some x =>
      obtain ⟨m1, e1⟩ := x
      rw [hc] at h
      obtain ⟨h1, h2, h3, h4, h5⟩ := chain_ok hi hc ho hs
      obtain ⟨k1, k2, k3, k4⟩ := ih h2 h h1 h5
      refine ⟨?_, k2, h3.trans k3, k4.trans h4⟩
      have : l ++ steps (a :: k) = l ++ steps [a] ++ steps k := by
        rw [List.append_assoc]
        congr 1
        exact List.filter_append (p := Part.isStep) [a] k
      rw [this]
      exact k1

/-- A chain makes a node that applies its steps. -/
theorem build_made [Inhabited S] {m m' : M V S} (hi : Inv m) {t : Ty V} {rw : Bool} {ps : List Nat}
    {l : List (Part V)} {n : Nat} (h : build m t rw ps l = some (m', n)) :
    ∃ b, Made m'.g ps (separate false l) n (steps l) b ∧ Runs m m' ∧ m'.stack = m.stack ∧ m'.ub = false ∧
      m'.Live n ∧ n < m'.g.size := by
  unfold build at h
  cases hc : chains m (.base t rw ps) l with
  | none => rw [hc] at h; cases h
  | some x =>
    obtain ⟨m1, e⟩ := x
    rw [hc] at h
    obtain ⟨h1, h2, h3, h4⟩ := chains_ok (ps := ps) (s := separate false l) (l := []) l hi hc
      ⟨[], [], true, .start, fun _ => rfl, rfl, rfl⟩ (fun h => h)
    obtain ⟨l1, l2, b1, ha, hb, hd, hl⟩ := h1
    have hmade := chain_make h2 h ha hb hd hl
    obtain ⟨_, k2, k3, k4, k5, k6, k7⟩ := make_seg h hd
    exact ⟨e.rw, hmade, h3.trans k4, k6.trans h4, k7, k5, by omega⟩

end

end Verif.With
