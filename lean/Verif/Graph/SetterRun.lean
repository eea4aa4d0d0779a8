import Verif.Graph.Props5
import Verif.Graph.Kinds

/-
Setter cursors over a whole run of a program.
-/

set_option linter.unusedSectionVars false

namespace Verif.Graph

variable {V S : Type} [DecidableEq V]

/-- Neither the setter `n` nor its source `p` shows something else, or the setter shows what its source
shows and forgot what was set. -/
def Tracks (p n : Nat) (g g' : Graph V S) : Prop :=
  ((g'.node p).last = (g.node p).last ∧ (g'.node n).last = (g.node n).last ∧
    (g'.node n).current = (g.node n).current) ∨
  ((g'.node n).last = (g'.node p).last ∧ (g'.node n).current = (g'.node p).last)

theorem Tracks.refl (p n : Nat) (g : Graph V S) : Tracks p n g g := .inl ⟨rfl, rfl, rfl⟩

theorem Tracks.trans {p n : Nat} {a b c : Graph V S} (h : Tracks p n a b) (k : Tracks p n b c) :
    Tracks p n a c := by
  rcases k with ⟨k1, k2, k3⟩ | k
  · rcases h with ⟨h1, h2, h3⟩ | ⟨h1, h2⟩
    · exact .inl ⟨k1.trans h1, k2.trans h2, k3.trans h3⟩
    · exact .inr ⟨by rw [k2, k1, h1], by rw [k3, k1, h2]⟩
  · exact .inr k

theorem Follows.tracks {p n : Nat} {g g' : Graph V S} (h : Follows p n g g') : Tracks p n g g' := by
  rcases h with ⟨h1, _, h2⟩ | ⟨h1, h2, h3⟩
  · exact .inl ⟨h1, by rw [h2], by rw [h2]⟩
  · exact .inr ⟨h1, h2.trans h3.symm⟩

/-- What leaves what is shown, and the setter, as they are. -/
theorem tracks_keep {p n : Nat} {g g' : Graph V S} (h1 : (g'.node p).last = (g.node p).last)
    (h2 : (g'.node n).last = (g.node n).last) (h3 : (g'.node n).current = (g.node n).current) :
    Tracks p n g g' := .inl ⟨h1, h2, h3⟩

theorem tracks_mod (p n : Nat) (g : Graph V S) (k : Nat) (f : Node V S → Node V S)
    (h1 : (f (g.node k)).last = (g.node k).last) (h2 : (f (g.node k)).current = (g.node k).current) :
    Tracks p n g (g.mod k f) := by
  have hl : ∀ x, ((g.mod k f).node x).last = (g.node x).last := by
    intro x
    by_cases hx : x = k
    · subst hx; rw [Graph.mod_self, h1]
    · rw [Graph.mod_ne _ _ hx]
  refine .inl ⟨hl p, hl n, ?_⟩
  by_cases hx : n = k
  · subst hx; rw [Graph.mod_self, h2]
  · rw [Graph.mod_ne _ _ hx]

theorem tracks_push (p n : Nat) (g : Graph V S) {k : Nat} (hk : k ≠ n) (v : V) :
    Tracks p n g (g.pushDown k v) := by
  have ht := pushDown_touch g k v
  refine .inl ⟨?_, by rw [ht.other n (Ne.symm hk)], by rw [ht.other n (Ne.symm hk)]⟩
  by_cases hx : p = k
  · subst hx; exact ht.last
  · rw [ht.other p hx]

/-- The condition under which propagation reaches a setter. -/
structure IsSetter (g : Graph V S) (p n : Nat) : Prop where
  kind : ∃ a, (g.node n).kind = .setter a
  parents : (g.node n).parents = [p]
  recomputed : (g.node n).recomputed = false
  alive : (g.node n).alive = true

theorem IsSetter.tracks {g : Graph V S} {p n : Nat} (h : IsSetter g p n) (w : WF g) (hf : Fresh g) {x : Nat}
    (hx : x ≠ n) : Tracks p n g (g.sendDown x) := by
  obtain ⟨a, hk⟩ := h.kind
  exact (sendDownN_follows g.size g x n p a w hf hk h.parents h.recomputed h.alive hx (by omega)).tracks

theorem IsSetter.same {g g' : Graph V S} {p n : Nat} (h : IsSetter g p n) (hs : Same g g')
    (hr : (g'.node n).recomputed = false) : IsSetter g' p n := by
  obtain ⟨a, hk⟩ := h.kind
  exact ⟨⟨a, (hs.kind n).trans hk⟩, (hs.parents n).trans h.parents, hr, (hs.alive n).trans h.alive⟩

/-- A step of library code, other than the rest of `set` on the setter itself. -/
theorem istep_tracks {m m' : M V S} (hi : Inv m) (he : istep m = some m') {p n : Nat}
    (h : IsSetter m.g p n) (hno : ∀ v, m.stack.head? ≠ some (.setterRest n v)) :
    Tracks p n m.g m'.g := by
  unfold istep at he
  split at he
  · cases he
  · split at he
    · split at he
      · cases he; dsimp only; refine tracks_mod _ _ _ _ _ ?_ ?_ <;> rfl
      · cases he; exact .refl _ _ _
    · split at he <;> (cases he; exact .refl _ _ _)
    · split at he
      · split at he
        · cases he; exact .refl _ _ _
        · split at he <;> (cases he; exact .refl _ _ _)
      · cases he
        dsimp only
        refine Tracks.trans ?_ (tracks_mod _ _ _ _ _ ?_ ?_) <;> try rfl
        split
        · unfold Graph.collect; refine tracks_mod _ _ _ _ _ ?_ ?_ <;> rfl
        · exact .refl _ _ _
    · cases he; exact .refl _ _ _
    · cases he; exact .refl _ _ _
    · rename_i k v st hst
      have hkn : ∀ {κ : Kind V S}, (m.g.node k).kind = κ → (∀ a, κ ≠ .setter a) → k ≠ n := by
        rintro κ h1 h2 rfl
        obtain ⟨a, h3⟩ := h.kind
        exact h2 a (h1.symm.trans h3)
      split at he
      · rename_i auto hk
        have hne := hkn hk (fun a => nofun)
        have ht := pushDown_touch m.g k v
        split at he
        · cases he
          exact (tracks_push p n m.g hne v).trans
            ((h.same ht.same (by rw [pushDown_recomputed]; exact h.recomputed)).tracks (ht.same.wf hi.wf)
              (ht.fresh hi.fresh) hne)
        · cases he; exact tracks_push p n m.g hne v
      · cases he
        simp only
        split
        · have hr := refresh_recomputes m.g k
          have hn : (m.g.refresh k).node n = m.g.node n :=
            refreshN_frame n (fun _ => True) _ m.g k trivial (fun _ _ _ _ => trivial) (by
              rintro a - h1 rfl
              obtain ⟨b, h3⟩ := h.kind
              rcases h1 with ⟨_, _, _, h1⟩ | ⟨_, _, h1⟩ <;> (rw [h1] at h3; cases h3))
          exact .inl ⟨(hr.last p).1, by rw [hn], by rw [hn]⟩
        · exact .refl _ _ _
      · cases he; dsimp only; refine tracks_mod _ _ _ _ _ ?_ ?_ <;> rfl
      · cases he; exact .refl _ _ _
      · cases he; exact .refl _ _ _
    · cases he; exact .refl _ _ _
    · cases he; exact .refl _ _ _
    · rename_i k v st hst
      have hne : k ≠ n := by
        rintro rfl
        exact hno v (by rw [hst]; rfl)
      have ht := pushDown_touch m.g k v
      split at he
      · cases he
        have ht2 : Touch k (m.g.pushDown k v)
            ((m.g.pushDown k v).mod k fun x => { x with recomputed := true }) :=
          touch_mod (same_mod rfl rfl rfl rfl rfl rfl rfl) rfl rfl rfl rfl rfl
        have hs := ht.same.trans ht2.same
        refine ((tracks_push p n m.g hne v).trans (tracks_mod _ _ _ _ _ ?_ ?_)).trans
          ((h.same hs ?_).tracks (hs.wf hi.wf) (ht2.fresh (ht.fresh hi.fresh)) hne) <;> try rfl
        rw [Graph.mod_ne _ _ (Ne.symm hne), pushDown_recomputed]
        exact h.recomputed
      · cases he; exact tracks_push p n m.g hne v
    · cases he
    · cases he

theorem sendAll_tracks (rs : List Nat) (g : Graph V S) {p n : Nat} (h : IsSetter g p n) (w : WF g)
    (hf : Fresh g) (hrs : ∀ r ∈ rs, (g.node r).parents = []) :
    Tracks p n g (rs.foldl (fun g r => g.sendDown r) g) := by
  obtain ⟨a, hk⟩ := h.kind
  exact (sendAll_follows rs g w hf hk h.parents h.recomputed h.alive hrs).tracks

theorem add_tracks (g : Graph V S) (x : Node V S) {p n : Nat} (hp : p < g.size) (hn : n < g.size) :
    Tracks p n g (g.add x) := by
  obtain ⟨k, hk, _⟩ := add_old g x (by omega : p ≠ g.size)
  obtain ⟨k', hk', _⟩ := add_old g x (by omega : n ≠ g.size)
  exact .inl ⟨by rw [hk], by rw [hk'], by rw [hk']⟩

theorem ustep_tracks [Inhabited S] {m m' : M V S} (hi : Inv m) {op : Op V S} (he : ustep m op = some m')
    {p n : Nat} (h : IsSetter m.g p n) : Tracks p n m.g m'.g := by
  have hn := hi.wf.alive_lt h.alive
  have hp : p < m.g.size := by
    have := hi.wf.lt n p (by rw [h.parents]; exact List.mem_cons_self ..)
    omega
  unfold ustep at he
  split at he
  · cases he
  · split at he
    case h_2 => cases he
    cases op with
    | newState => cases he; exact add_tracks _ _ hp hn
    | newSensor => cases he; exact add_tracks _ _ hp hn
    | newConstant => cases he; exact add_tracks _ _ hp hn
    | newCalc => simp only at he; split at he <;> cases he; exact add_tracks _ _ hp hn
    | newXform => simp only at he; split at he <;> cases he; exact add_tracks _ _ hp hn
    | newSetter => simp only at he; split at he <;> cases he; exact add_tracks _ _ hp hn
    | set => simp only at he; split at he <;> cases he; exact .refl _ _ _
    | update => simp only at he; split at he <;> cases he; exact .refl _ _ _
    | commit rs =>
      simp only at he
      split at he
      · rename_i hv
        cases he
        refine sendAll_tracks rs m.g h hi.wf hi.fresh fun r hr => ?_
        rw [Bool.and_eq_true] at hv
        exact List.isEmpty_iff.1 (List.all_eq_true.1 hv.2 r hr)
      · cases he
    | attach j i => simp only at he; split at he <;> cases he; dsimp only; refine tracks_mod _ _ _ _ _ ?_ ?_ <;> rfl
    | detach j w => cases he; dsimp only; refine tracks_mod _ _ _ _ _ ?_ ?_ <;> rfl
    | kill j => simp only at he; split at he <;> cases he; dsimp only; refine tracks_mod _ _ _ _ _ ?_ ?_ <;> rfl
    | ret => simp only at he; split at he <;> cases he; exact .refl _ _ _

theorem step_isSetter [Inhabited S] {m : M V S} (hr : Reach m) (hub : m.ub = false) {p n : Nat} {a : Bool}
    (hk : (m.g.node n).kind = .setter a) (hp : (m.g.node n).parents = [p]) (ha : m.Live n) :
    IsSetter m.g p n :=
  ⟨⟨a, hk⟩, hp, reach_recomputed hr hub n ((reach_inv hr hub).wf.alive_lt ha), ha⟩

/-- The rest of `set` on the setter itself is not running. -/
def NoRest (n : Nat) (m : M V S) : Prop := ∀ v, Frame.setterRest n v ∉ m.stack

/-- A step calls the function of the setter `n`, or the rest of `set` is still not running. -/
theorem step_noRest [Inhabited S] {m m' : M V S} (hs : Step m m') {n : Nat} (h : NoRest n m) :
    NoRest n m' ∨ ∃ v, m'.log = m.log ++ [.setterCall n v] := by
  have cons : ∀ {st : List (Frame V)} {fs : List (Frame V)} {f : Frame V}, m.stack = f :: st →
      m'.stack = fs ++ st → (∀ v, Frame.setterRest n v ∉ fs) → NoRest n m' := by
    intro st fs f h1 h2 h3 v hv
    rw [h2] at hv
    rcases List.mem_append.1 hv with hv | hv
    · exact h3 v hv
    · exact h v (by rw [h1]; exact List.mem_cons_of_mem _ hv)
  cases hs with
  | lib he =>
    unfold istep at he
    split at he
    · cases he
    · split at he
      · rename_i hst
        split at he
        · cases he; exact .inl (cons (fs := [_]) hst rfl (by simp))
        · cases he; exact .inl (cons (fs := []) hst rfl (by simp))
      · rename_i hst
        split at he
        · cases he; exact .inl h
        · cases he; exact .inl (cons (fs := [_]) hst rfl (by simp))
        · cases he; exact .inl (cons (fs := [_, _]) hst rfl (by simp))
      · rename_i hst
        split at he
        · split at he
          · cases he; exact .inl h
          · split at he
            · cases he; exact .inl (cons (fs := [_, _]) hst rfl (by simp))
            · cases he; exact .inl (cons (fs := [_]) hst rfl (by simp))
        · cases he; exact .inl (cons (fs := []) hst rfl (by simp))
      · rename_i hst; cases he; exact .inl (cons (fs := []) hst rfl (by simp))
      · rename_i hst; cases he; exact .inl (cons (fs := [_, _]) hst rfl (by simp))
      · rename_i k v st hst
        split at he
        · split at he
          · cases he; exact .inl (cons (fs := [_]) hst rfl (by simp))
          · cases he; exact .inl (cons (fs := []) hst rfl (by simp))
        · cases he; exact .inl (cons (fs := [_]) hst rfl (by simp))
        · cases he; exact .inl (cons (fs := [_]) hst rfl (by simp))
        · by_cases hkn : k = n
          · subst hkn; cases he; exact .inr ⟨v, rfl⟩
          · cases he
            exact .inl (cons (fs := [_, _]) hst rfl (by simp; exact fun e => absurd e.symm hkn))
        · cases he; exact .inl (cons (fs := []) hst rfl (by simp))
      · rename_i hst; cases he; exact .inl (cons (fs := []) hst rfl (by simp))
      · rename_i hst; cases he; exact .inl (cons (fs := [_, _]) hst rfl (by simp))
      · rename_i hst
        split at he
        · cases he; exact .inl (cons (fs := [_]) hst rfl (by simp))
        · cases he; exact .inl (cons (fs := []) hst rfl (by simp))
      · cases he
      · cases he
  | user op he =>
    left
    unfold ustep at he
    split at he
    · cases he
    · split at he
      case h_2 => cases he
      rename_i st hst
      have hu : m'.stack = m.stack → NoRest n m' := fun e v => by rw [e]; exact h v
      have hup : ∀ k v, m'.stack = .up k v :: m.stack → NoRest n m' := fun k v e u hv => by
        rw [e] at hv
        rcases List.mem_cons.1 hv with hv | hv
        · cases hv
        · exact h u hv
      cases op with
      | newState => cases he; exact hu rfl
      | newSensor => cases he; exact hu rfl
      | newConstant => cases he; exact hu rfl
      | newCalc => simp only at he; split at he <;> cases he; exact hu rfl
      | newXform => simp only at he; split at he <;> cases he; exact hu rfl
      | newSetter => simp only at he; split at he <;> cases he; exact hu rfl
      | set => simp only at he; split at he <;> cases he; exact hup _ _ rfl
      | update => simp only at he; split at he <;> cases he; exact hup _ _ rfl
      | commit rs =>
        simp only at he; split at he <;> cases he
        intro v hv
        rcases List.mem_cons.1 hv with hv | hv
        · cases hv
        · exact h v hv
      | attach j i => simp only at he; split at he <;> cases he; exact hu rfl
      | detach j w => cases he; exact hu rfl
      | kill j => simp only at he; split at he <;> cases he; exact hu rfl
      | ret =>
        simp only at he; split at he <;> cases he
        exact cons (fs := []) hst rfl (by simp)

theorem step_log [Inhabited S] {m m' : M V S} (hs : Step m m') : ∃ l, m'.log = m.log ++ l := by
  cases hs with
  | lib he =>
    rcases (istep_log he).2 with ⟨h, _⟩ | ⟨_, _, _, _, _, _, _, _, h⟩ | ⟨_, _, _, _, _, _, h⟩
    · exact ⟨[], by rw [h, List.append_nil]⟩
    · exact ⟨_, by rw [h]⟩
    · exact ⟨_, by rw [h]⟩
  | user op he => exact ⟨[], by rw [(ustep_log he).1, List.append_nil]⟩

theorem Runs.log [Inhabited S] {m m' : M V S} (h : Runs m m') : ∃ l, m'.log = m.log ++ l := by
  induction h with
  | refl => exact ⟨[], (List.append_nil _).symm⟩
  | step hs _ ih =>
    obtain ⟨l, h1⟩ := step_log hs
    obtain ⟨l', h2⟩ := ih
    exact ⟨l ++ l', by rw [h2, h1, List.append_assoc]⟩

/-- A run during which the function of the setter is not called. -/
theorem Runs.tracks [Inhabited S] {m m' : M V S} (h : Runs m m') (hr : Reach m) (hub : m'.ub = false)
    {p n : Nat} {a : Bool} (hk : (m.g.node n).kind = .setter a) (hp : (m.g.node n).parents = [p])
    (hn : n < m.g.size) (ha : m'.Live n) (hno : NoRest n m)
    {l : List (Ev V)} (hl : m'.log = m.log ++ l) (hq : ∀ v, .setterCall n v ∉ l) :
    Tracks p n m.g m'.g := by
  induction h generalizing l with
  | refl => exact .refl _ _ _
  | @step m m1 m2 hs hrest ih =>
    have hub0 : m.ub = false := (Runs.step hs hrest).ub hub
    have hub1 : m1.ub = false := hrest.ub hub
    have hi := reach_inv hr hub0
    have hev := step_evolves hi hs hn
    have hr1 : Reach m1 := .step hr hs
    have hi1 := reach_inv hr1 hub1
    have hn1 : n < m1.g.size := Nat.lt_of_lt_of_le hn (step_size_le hs)
    have ha1 : m1.Live n := (hrest.evolves hi1 hub hn1).1.alive ha
    have ha0 : m.Live n := hev.alive ha1
    have hset := step_isSetter hr hub0 hk hp ha0
    obtain ⟨l1, hl1⟩ := step_log hs
    obtain ⟨l2, hl2⟩ := hrest.log
    have hll : l = l1 ++ l2 := by
      rw [hl2, hl1, List.append_assoc] at hl
      exact (List.append_cancel_left hl).symm
    have h1 : Tracks p n m.g m1.g := by
      cases hs with
      | lib he =>
        refine istep_tracks hi he hset fun v hv => ?_
        exact hno v (by cases hst : m.stack with
          | nil => rw [hst] at hv; cases hv
          | cons f st =>
            rw [hst] at hv
            simp only [List.head?_cons, Option.some.injEq] at hv
            rw [hv]; exact List.mem_cons_self ..)
      | user op he => exact ustep_tracks hi he hset
    have hno1 : NoRest n m1 := by
      rcases step_noRest hs hno with h | ⟨v, h⟩
      · exact h
      · rw [hl1] at h
        have := List.append_cancel_left h
        subst this
        exact absurd (by rw [hll]; exact List.mem_append_left _ (List.mem_singleton.2 rfl)) (hq v)
    exact h1.trans (ih hr1 hub (hev.const.1.trans hk) (hev.const.2.1.trans hp) hn1 ha hno1 hl2
      fun v hv => hq v (by rw [hll]; exact List.mem_append_right _ hv))

/-- A transactional setter that shows what its source shows goes on doing so, whatever is set. -/
theorem Runs.shows [Inhabited S] {m m' : M V S} (h : Runs m m') (hr : Reach m) (hub : m'.ub = false)
    {p n : Nat} (hk : (m.g.node n).kind = .setter false) (hp : (m.g.node n).parents = [p])
    (hn : n < m.g.size) (ha : m'.Live n) (h0 : m.get n = m.get p) : m'.get n = m'.get p := by
  induction h with
  | refl => exact h0
  | @step m m1 m2 hs hrest ih =>
    have hub0 : m.ub = false := (Runs.step hs hrest).ub hub
    have hub1 : m1.ub = false := hrest.ub hub
    have hi := reach_inv hr hub0
    have hev := step_evolves hi hs hn
    have hr1 : Reach m1 := .step hr hs
    have hi1 := reach_inv hr1 hub1
    have hn1 : n < m1.g.size := Nat.lt_of_lt_of_le hn (step_size_le hs)
    have ha1 : m1.Live n := (hrest.evolves hi1 hub hn1).1.alive ha
    have hset := step_isSetter hr hub0 hk hp (hev.alive ha1)
    refine ih hr1 hub (hev.const.1.trans hk) (hev.const.2.1.trans hp) hn1 ha ?_
    have fin : Tracks p n m.g m1.g → m1.get n = m1.get p := by
      rintro (⟨h1, h2, _⟩ | ⟨h1, _⟩)
      · show (m1.g.node n).last = (m1.g.node p).last
        rw [h1, h2]; exact h0
      · exact h1
    cases hs with
    | lib he =>
      by_cases hno : ∀ v, m.stack.head? ≠ some (.setterRest n v)
      · exact fin (istep_tracks hi he hset hno)
      · simp only [Classical.not_forall, Classical.not_not] at hno
        obtain ⟨v, hv⟩ := hno
        cases hst : m.stack with
        | nil => rw [hst] at hv; cases hv
        | cons f st =>
          rw [hst] at hv
          simp only [List.head?_cons, Option.some.injEq] at hv
          subst hv
          unfold istep at he
          rw [if_neg (by rw [hub0]; decide), hst] at he
          dsimp only at he
          rw [hk] at he
          cases he
          have ht := pushDown_touch m.g n v
          have hpn := hi.wf.lt n p (by rw [hp]; exact List.mem_cons_self ..)
          show ((m.g.pushDown n v).node n).last = ((m.g.pushDown n v).node p).last
          rw [ht.last, ht.other p (by omega)]
          exact h0
    | user op he => exact fin (ustep_tracks hi he hset)

end Verif.Graph
