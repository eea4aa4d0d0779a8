import Verif.Graph.Props4

/-
Property C11, for automatic states: sequences of writes.  `Verif.Graph.Spec` has the vocabulary.
-/

set_option linter.unusedSectionVars false

namespace Verif.Graph

variable {V S : Type} [DecidableEq V]

/-- A write through a cursor: what is called, and the two functions of the lens that the cursor is zoomed by. -/
structure Write (V : Type) where
  /-- the cursor -/
  cursor : Nat
  gt : V → V
  st : V → V → V
  /-- `set(v)`, or `update(f)` -/
  arg : V ⊕ (V → V)

/-- The call. -/
def Write.op (w : Write V) : Op V S :=
  match w.arg with
  | .inl v => .set w.cursor v
  | .inr f => .update w.cursor f

/-- What the write means for the whole value. -/
def Write.apply (w : Write V) (x : V) : V :=
  match w.arg with
  | .inl v => w.st x v
  | .inr f => w.st x (f (w.gt x))

/-- The automatic state `r` is there, user code is running, and nothing is left to be published. -/
structure Automatic [Inhabited S] (m : M V S) (r : Nat) : Prop where
  reach : Reach m
  ub : m.ub = false
  user : ∃ fs, m.stack = .user :: fs
  live : m.Live r
  kind : (m.g.node r).kind = .state true
  clean : ¬ m.Uncommitted r

/-- The cursor `k` is there and is zoomed from the state `r`. -/
def Zoomed (m : M V S) (k r : Nat) (gt : V → V) (st : V → V → V) : Prop := LensLine m.g k r gt st ∧ m.Live k

theorem Automatic.facts [Inhabited S] {m : M V S} {r : Nat} (h : Automatic m r) :
    Inv m ∧ (m.g.node r).dirty = false ∧ (m.g.node r).parents = [] := by
  have hi := reach_inv h.reach h.ub
  refine ⟨hi, ?_, roots_no_parents h.reach h.ub (hi.wf.alive_lt h.live) (.inl ⟨_, h.kind⟩)⟩
  cases hd : (m.g.node r).dirty with
  | false => rfl
  | true => exact absurd ⟨fun _ _ _ h3 => (by rw [h.kind] at h3; cases h3), hd⟩ h.clean

/-- Any sequence of `set` and `update`, through any cursors zoomed from an automatic state by any lenses: the calls can be
made, the value of the state is that of the writes applied in order, and every cursor zoomed from the state shows its part
of that value. -/
theorem C11_automatic_sequence [Inhabited S] {m : M V S} {r : Nat} (h : Automatic m r) (l : List (Write V))
    (hl : ∀ w ∈ l, Zoomed m w.cursor r w.gt w.st) :
    (∃ m1, PCalls m (l.map Write.op) m1) ∧
    ∀ m1, PCalls m (l.map Write.op) m1 → Automatic m1 r ∧ m1.get r = l.foldl (fun x w => w.apply x) (m.get r) ∧
      ∀ k gt st, Zoomed m k r gt st →
        Zoomed m1 k r gt st ∧ m1.get k = gt (l.foldl (fun x w => w.apply x) (m.get r)) := by
  induction l generalizing m with
  | nil =>
    refine ⟨⟨m, .nil m⟩, fun m1 hw => ?_⟩
    cases hw
    obtain ⟨hi, hd, hp⟩ := h.facts
    exact ⟨h, rfl, fun k gt st hk => ⟨hk, (hk.1.shows hi hp hd hk.2).1⟩⟩
  | cons w l ih =>
    obtain ⟨hi, hd, hp⟩ := h.facts
    obtain ⟨hwl, hwa⟩ := hl w (List.mem_cons_self ..)
    have ht : (w.op : Op V S).target = some w.cursor := by
      unfold Write.op; cases w.arg <;> rfl
    have hpr : m.get r = m.pending r := (hi.shows h.live ((LensLine.state h.kind).shows hi hp hd h.live).2)
    have next : ∀ m', PCall m (w.op : Op V S) m' → m'.get r = w.apply (m.get r) ∧ Automatic m' r ∧
        ∀ k gt st, Zoomed m k r gt st → Zoomed m' k r gt st := by
      intro m' h1
      obtain ⟨v, k1, k2, k3, k4, k5⟩ := (auto_line hi ht hwl h.kind h.live).2 _ h1
      obtain ⟨_, h0, h00, hst⟩ := id h1
      have hruns : Runs m m' := .step (.user _ h0) h00.runs
      have hc' := hruns.const hi k5 (hi.wf.alive_lt h.live)
      refine ⟨?_, ⟨h1.reach h.reach, k5, hst.symm ▸ h.user, (PCall.alive ht h1 r).trans h.live, hc'.1.trans h.kind,
        fun h3 => (by rw [h3.2] at k4; cases k4)⟩, fun k gt st hk =>
        ⟨hruns.lensLine hi k5 (hi.wf.alive_lt hk.2) hk.1, (PCall.alive ht h1 k).trans hk.2⟩⟩
      have hshow := hwl.shows hi hp hd hwa
      have hs2 := hi.shows hwa hshow.2
      rw [k2, ← hpr]
      unfold Write.op at k1
      unfold Write.apply
      cases ha : w.arg with
      | inl v' => rw [ha] at k1; cases k1; rfl
      | inr f => rw [ha] at k1; cases k1; rw [← hshow.1, hs2]
    have rest : ∀ m', PCall m (w.op : Op V S) m' → ∀ x ∈ l, Zoomed m' x.cursor r x.gt x.st := fun m' h1 x hx =>
      (next m' h1).2.2 _ _ _ (hl x (List.mem_cons_of_mem _ hx))
    refine ⟨?_, fun m1 hw => ?_⟩
    · obtain ⟨m', h1⟩ := (auto_line hi ht hwl h.kind h.live).1 hwa h.ub h.user
      obtain ⟨m1, h2⟩ := (ih (next m' h1).2.1 (rest m' h1)).1
      exact ⟨m1, .cons h1 h2⟩
    · cases hw with
      | cons h1 h2 =>
        rename_i m'
        obtain ⟨j1, j2, j3⟩ := next m' h1
        obtain ⟨i0, i1, i2⟩ := (ih j2 (rest m' h1)).2 m1 h2
        rw [j1] at i1 i2
        exact ⟨i0, i1, fun k gt st hk => i2 k gt st (j3 k gt st hk)⟩

/-- To make a cursor by zooming from another one with a lens, of which the two functions are given. -/
def zoomBy (cmp : Bool) (p : Nat) (gt : V → V) (st : V → V → V) (dflt : V) : Op V S :=
  .newCalc cmp [p] (fun l => some (gt (l.headD dflt))) (some fun l v => [st (l.headD dflt) v]) true dflt

/-- At any time between such writes, a cursor can be zoomed by any lens from any cursor of the state.  It is zoomed from the
state by the composed lens, and shows its part at once; nothing else changes. -/
theorem C11_automatic_zoom [Inhabited S] {m : M V S} {r : Nat} (h : Automatic m r) {p : Nat} {gt st}
    (hp : Zoomed m p r gt st) (cmp : Bool) (gt1 : V → V) (st1 : V → V → V) (dflt : V) :
    (∃ m1, PCall m (zoomBy cmp p gt1 st1 dflt) m1) ∧
    ∀ m1, PCall m (zoomBy cmp p gt1 st1 dflt) m1 → Automatic m1 r ∧
      (∃ n, ¬ m.Live n ∧ n = m.g.size ∧ m1.g.size = m.g.size + 1 ∧
        Zoomed m1 n r (fun x => gt1 (gt x)) (fun x v => st x (st1 (gt x) v)) ∧ m1.get n = gt1 (gt (m.get r))) ∧
      (∀ k gt st, Zoomed m k r gt st → Zoomed m1 k r gt st) ∧ ∀ k, m.Live k → m1.Live k ∧ m1.get k = m.get k := by
  obtain ⟨hi, hd, hpar⟩ := h.facts
  obtain ⟨fs, hst⟩ := h.user
  have hlt := hi.wf.alive_lt hp.2
  generalize hx : (freshNode (.calc (fun l => some (gt1 (l.headD dflt))) (some fun l v => [st1 (l.headD dflt) v]) true) [p]
    ((some (gt1 ((m.g.currents [p]).headD dflt))).getD dflt) cmp default default : Node V S) = x
  have hxp : x.parents = [p] := by rw [← hx]; rfl
  have hxa : x.alive = true := by rw [← hx]; rfl
  have e1 : ustep m (zoomBy cmp p gt1 st1 dflt) = some { m with g := m.g.add x } := by
    unfold ustep zoomBy
    rw [hst, if_neg (by rw [h.ub]; exact Bool.false_ne_true)]
    simp only
    have hv : ([p] : List Nat).all m.g.valid = true := by
      simp only [List.all_cons, List.all_nil, Bool.and_true]
      unfold Graph.valid
      rw [decide_eq_true hlt, hp.2]; rfl
    have hw : ([p] : List Nat).all m.g.canWrite = true := by
      simp only [List.all_cons, List.all_nil, Bool.and_true]; exact hp.1.canWrite
    rw [if_pos ⟨by simp, hv, fun _ => hw⟩, ← hx]
  have hnew := add_new m.g x (by rw [hxp]; intro q hq; rw [List.mem_singleton] at hq; rw [hq]; exact hlt)
  refine ⟨⟨_, _, e1, .refl _, rfl⟩, ?_⟩
  rintro m1 ⟨m2, h1, h2, h3⟩
  rw [e1] at h1
  cases h1
  have hm1 : m1 = { m with g := m.g.add x } := by
    cases h2 with
    | refl => rfl
    | step h4 _ => unfold pstep at h4; rw [if_pos (Nat.le_refl _)] at h4; cases h4
  subst hm1
  have hr1 : Reach { m with g := m.g.add x } := h.reach.step (.user _ e1)
  have hruns : Runs m { m with g := m.g.add x } := .step (.user _ e1) (.refl _)
  have hold : ∀ k, k ≠ m.g.size → ∃ c, (m.g.add x).node k = { m.g.node k with children := c } := by
    intro k hk
    obtain ⟨_, h5, _⟩ := add_old m.g x hk
    exact ⟨_, h5⟩
  have hne : ∀ k, m.Live k → k ≠ m.g.size := fun k hk => Nat.ne_of_lt (hi.wf.alive_lt hk)
  have hlive : ∀ k, m.Live k → M.Live { m with g := m.g.add x } k := by
    intro k hk
    obtain ⟨c, hc⟩ := hold k (hne k hk)
    unfold M.Live
    dsimp only
    rw [hc]; exact hk
  have hget : ∀ k, m.Live k → M.get { m with g := m.g.add x } k = m.get k := by
    intro k hk
    obtain ⟨c, hc⟩ := hold k (hne k hk)
    unfold M.get
    dsimp only
    rw [hc]
  have hz : ∀ k gt st, Zoomed m k r gt st → Zoomed { m with g := m.g.add x } k r gt st := fun k gt st hk =>
    ⟨hruns.lensLine hi h.ub (hi.wf.alive_lt hk.2) hk.1, hlive k hk.2⟩
  have hauto : Automatic { m with g := m.g.add x } r := by
    obtain ⟨c, hc⟩ := hold r (hne r h.live)
    refine ⟨hr1, h.ub, ⟨fs, hst⟩, hlive r h.live, ?_, fun h6 => ?_⟩
    · dsimp only; rw [hc]; exact h.kind
    · have h7 : ((m.g.add x).node r).dirty = true := h6.2
      rw [hc] at h7
      rw [hd] at h7
      cases h7
  have hzn : Zoomed { m with g := m.g.add x } m.g.size r (fun x => gt1 (gt x)) (fun x v => st x (st1 (gt x) v)) := by
    refine ⟨.zoom (p := p) gt1 st1 (by dsimp only; rw [hnew, ← hx]; rfl) (by dsimp only; rw [hnew]; exact hxp)
      (fun _ => rfl) (fun _ _ => rfl) (hz p gt st hp).1, ?_⟩
    unfold M.Live
    dsimp only
    rw [hnew]; exact hxa
  refine ⟨hauto, ⟨_, fun h8 => Nat.lt_irrefl _ (hi.wf.alive_lt h8), rfl, add_size _ _, hzn, ?_⟩, hz, fun k hk => ⟨hlive k hk, hget k hk⟩⟩
  obtain ⟨hi1, hd1, hp1⟩ := hauto.facts
  rw [(hzn.1.shows hi1 hp1 hd1 hzn.2).1, hget r h.live]

/-- Digits of a number: the tens are set, the units are doubled, and the tens are incremented through the cursor that shows
them plus one. -/
example : ∃ (m m1 : M Nat Nat) (l : List (Write Nat)), Automatic m 0 ∧
    (∀ w ∈ l, Zoomed m w.cursor 0 w.gt w.st) ∧ l.length = 3 ∧
    PCalls m (l.map Write.op) m1 ∧ m1.get 0 = 44 ∧ m1.get 3 = 5 := by
  refine ⟨exec (exDigits true) boot,
    (((exec (exDigits true) boot).pcall (.set 1 3)).pcall (.update 2 (2 * ·))).pcall (.update 3 (· + 1)),
    [⟨1, (· / 10), fun x v => 10 * v + x % 10, .inl 3⟩, ⟨2, (· % 10), fun x v => x / 10 * 10 + v % 10, .inr (2 * ·)⟩,
      ⟨3, (· / 10 + 1), fun x v => 10 * (v - 1) + x % 10, .inr (· + 1)⟩],
    ⟨exec_reach _, by decide +kernel, ⟨[], by decide +kernel⟩, by unfold M.Live; decide +kernel, rfl,
      fun h => by have := h.2; revert this; decide +kernel⟩, ?_, rfl, ?_, by decide +kernel, by decide +kernel⟩
  · intro w hw
    simp only [List.mem_cons, List.not_mem_nil, or_false] at hw
    rcases hw with rfl | rfl | rfl
    · exact ⟨exDigits_tens _, by unfold M.Live; decide +kernel⟩
    · exact ⟨exDigits_units _, by unfold M.Live; decide +kernel⟩
    · exact ⟨exDigits_next _, by unfold M.Live; decide +kernel⟩
  · exact .cons (pcall_call (by decide +kernel) (by decide +kernel)) (.cons (pcall_call (by decide +kernel)
      (by decide +kernel)) (.cons (pcall_call (by decide +kernel) (by decide +kernel)) (.nil _)))

/-- A cursor made later, zoomed from the cursor of the tens. -/
example : ∃ m m1 : M Nat Nat, Automatic m 0 ∧ Zoomed m 1 0 (· / 10) (fun x v => 10 * v + x % 10) ∧
    PCall m (zoomBy true 1 (2 * ·) (fun _ v => v / 2) 0) m1 ∧ m1.get 4 = 10 :=
  ⟨exec (exDigits true) boot, (exec (exDigits true) boot).pcall (zoomBy true 1 (2 * ·) (fun _ v => v / 2) 0),
    ⟨exec_reach _, by decide +kernel, ⟨[], by decide +kernel⟩, by unfold M.Live; decide +kernel, rfl,
      fun h => by have := h.2; revert this; decide +kernel⟩, ⟨exDigits_tens _, by unfold M.Live; decide +kernel⟩,
    pcall_call (by decide +kernel) (by decide +kernel), by decide +kernel⟩

end Verif.Graph
