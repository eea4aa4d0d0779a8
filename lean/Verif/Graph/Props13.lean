import Verif.Graph.Props12

/-
C109: who gets to see values that a callback corrects.
-/

set_option linter.unusedSectionVars false

namespace Verif.Graph

variable {V S : Type} [DecidableEq V]

/-- A call that was made with a stack of depth `d` comes from `m` to `m'`, possibly within callbacks, where
callbacks are as `P` says. -/
inductive Passes [Inhabited S] (P : Writes V) : Nat → M V S → M V S → Prop where
  | here (d m) : Passes P d m m
  | lib {d m m1 m'} : d < m.stack.length → istep m = some m1 → Passes P d m1 m' → Passes P d m m'
  | inside {d m m1 m' n w prev st} : d < m.stack.length →
      m.stack = .user :: .obs n (some w) prev :: st →
      ustep m (.set (P.target w) (P.value w m.get)) = some m1 → Passes P m.stack.length m1 m' →
      Passes P d m m'
  | callback {d m m1 m2 m3 m' n w prev st} : d < m.stack.length →
      m.stack = .user :: .obs n (some w) prev :: st →
      ustep m (.set (P.target w) (P.value w m.get)) = some m1 → Corrects P m.stack.length m1 m2 →
      m2.stack = m.stack → ustep m2 .ret = some m3 → Passes P d m3 m' → Passes P d m m'

/-! ### Normal values stay normal -/

/-- The state, and the callbacks that are attached to it. -/
structure Base [Inhabited S] (r : Nat) (L : List Nat) (m : M V S) : Prop where
  reach : Reach m
  ub : m.ub = false
  kind : (m.g.node r).kind = .state true
  live : (m.g.node r).alive = true
  obs : (m.g.node r).obs = L

theorem Base.valid [Inhabited S] {r : Nat} {L : List Nat} {m : M V S} (h : Base r L m) :
    m.g.valid r = true := by
  unfold Graph.valid
  simp [h.live, (reach_inv h.reach h.ub).wf.alive_lt h.live]

theorem Base.set [Inhabited S] {r : Nat} {L : List Nat} {m m1 : M V S} (h : Base r L m) {u : V}
    {st : List (Frame V)} (hst : m.stack = .user :: st) (hs : ustep m (.set r u) = some m1) :
    m1 = { m with stack := .up r u :: m.stack } ∧ Base r L m1 := by
  have hr : Reach m1 := .step h.reach (.user _ hs)
  rw [set_begins h.ub hst h.valid h.kind] at hs
  cases hs
  exact ⟨rfl, hr, h.ub, h.kind, h.live, h.obs⟩

theorem Base.ret [Inhabited S] {r : Nat} {L : List Nat} {m m1 : M V S} (h : Base r L m)
    {st : List (Frame V)} (hst : m.stack = .user :: st) (hs : ustep m .ret = some m1) :
    m1 = { m with stack := st } ∧ Base r L m1 := by
  have hr : Reach m1 := .step h.reach (.user _ hs)
  have he := ret_stack hst hs
  subst he
  exact ⟨rfl, hr, h.ub, h.kind, h.live, h.obs⟩

/-- A frame that leads to normal values of the state only. -/
def Fine (r : Nat) (norm : V → V) : Frame V → Prop
  | .up n u => n = r ∧ norm u = u
  | .user => True
  | .notify _ => True
  | .kids _ _ _ _ _ => True
  | .obs _ _ _ => True
  | _ => False

/-- The state shows a normal value, or is about to. -/
structure VState [Inhabited S] (r : Nat) (norm : V → V) (L : List Nat) (d : Nat) (m : M V S) : Prop where
  base : Base r L m
  stack : ∃ fs b, m.stack = fs ++ b ∧ b.length = d ∧ (∀ f ∈ fs, Fine r norm f) ∧ Watching m.g fs ∧
    (norm (m.get r) = m.get r ∨ ∃ u l, fs = .up r u :: l)

theorem istep_fine {m m' : M V S} (he : istep m = some m') {f : Frame V} {fs b : List (Frame V)} {r : Nat}
    {norm : V → V} (hst : m.stack = f :: (fs ++ b)) (hn : ∀ f' ∈ f :: fs, Fine r norm f')
    (hf : ∀ n u, f ≠ .up n u) (hub : m'.ub = false) :
    Flags m.g m'.g ∧ ∃ fs', m'.stack = fs' ++ b ∧ ∀ f ∈ fs', Fine r norm f := by
  have hfs : ∀ f ∈ fs, Fine r norm f := fun f hf => hn f (List.mem_cons_of_mem _ hf)
  have hcons : ∀ f : Frame V, Fine r norm f → ∀ f' ∈ f :: fs, Fine r norm f' := by
    intro f hf f' hf'
    rcases List.mem_cons.1 hf' with rfl | h
    · exact hf
    · exact hfs f' h
  have htwo : ∀ f g : Frame V, Fine r norm f → Fine r norm g → ∀ f' ∈ f :: g :: fs, Fine r norm f' := by
    intro f g hf hg f' hf'
    rcases List.mem_cons.1 hf' with rfl | h
    · exact hf
    · exact hcons g hg f' h
  have hff := hn f (List.mem_cons_self ..)
  unfold istep at he
  rw [hst] at he
  split at he
  · cases he
  · cases f with
    | notify n =>
      simp only at he
      split at he
      · cases he
        dsimp only
        refine ⟨?_, _ :: fs, rfl, hcons _ trivial⟩
        refine flags_mod _ _ _ ?_ ?_ ?_ ?_ ?_ ?_ ?_ ?_ <;> first | rfl | exact fun _ => rfl
      · cases he; exact ⟨.refl _, fs, rfl, hfs⟩
    | obs n cur prev =>
      simp only at he
      split at he
      · cases he; cases hub
      · cases he; exact ⟨.refl _, _ :: fs, rfl, hcons _ trivial⟩
      · cases he
        exact ⟨.refl _, _ :: _ :: fs, rfl, htwo _ _ trivial trivial⟩
    | kids n i size prev garbage =>
      simp only at he
      split at he
      · split at he
        · cases he; cases hub
        · split at he
          · cases he
            exact ⟨.refl _, _ :: _ :: fs, rfl, htwo _ _ trivial trivial⟩
          · cases he; exact ⟨.refl _, _ :: fs, rfl, hcons _ trivial⟩
      · cases he
        dsimp only
        refine ⟨?_, fs, rfl, hfs⟩
        refine Flags.trans (b := if _ then _ else _) ?_ (flags_mod _ _ _ rfl rfl rfl rfl rfl rfl rfl id)
        split
        · exact flags_mod _ _ _ rfl rfl rfl rfl rfl rfl rfl id
        · exact .refl _
    | user => cases he
    | up n u => exact absurd rfl (hf n u)
    | roots _ => cases hff
    | ups _ => cases hff
    | setterRest _ _ => cases hff

theorem no_overrun [Inhabited S] {m m' : M V S} (hr : Reach m) (he : istep m = some m') {f : Frame V}
    {fs b : List (Frame V)} (hst : m.stack = f :: (fs ++ b)) (hw : Watching m.g (f :: fs)) :
    m'.ub = false := by
  cases hu : m'.ub with
  | false => rfl
  | true =>
    obtain ⟨n, w, prev, st, hs, hno⟩ := C17_no_overrun hr he hu
    rw [hst] at hs
    cases hs
    exact absurd (hw n w prev (List.mem_cons_self ..)) hno

theorem VState.lib [Inhabited S] {r : Nat} {norm : V → V} {L : List Nat} {d : Nat} {m m' : M V S}
    (h : VState r norm L d m) (hd : d < m.stack.length) (he : istep m = some m') :
    VState r norm L d m' := by
  obtain ⟨fs, b, hst, hb, hfine, hwat, hval⟩ := h.stack
  have hr : Reach m' := .step h.base.reach (.lib he)
  cases fs with
  | nil => rw [hst] at hd; simp at hd; omega
  | cons f fs =>
    have hub := no_overrun h.base.reach he hst hwat
    obtain ⟨fs', hst', hwat'⟩ := istep_watching he hst hub hwat
    have hobs : (m'.g.node r).obs = L := by rw [istep_obs he]; exact h.base.obs
    by_cases hup : ∃ n u, f = .up n u
    · obtain ⟨n, u, rfl⟩ := hup
      obtain ⟨rfl, hu⟩ := hfine _ (List.mem_cons_self ..)
      obtain ⟨m1, he1, hs1, hub1, hsame, -, hget, -⟩ :=
        up_state (reach_inv h.base.reach h.base.ub) h.base.ub hst h.base.kind h.base.live
      rw [he] at he1
      cases he1
      refine ⟨⟨hr, hub, by rw [hsame.kind]; exact h.base.kind, by rw [hsame.alive]; exact h.base.live, hobs⟩,
        .notify n :: fs, b, hs1, hb, ?_, ?_, .inl (by rw [hget]; exact hu)⟩
      · intro f' hf'
        rcases List.mem_cons.1 hf' with rfl | hf'
        · trivial
        · exact hfine f' (List.mem_cons_of_mem _ hf')
      · have : fs' = .notify n :: fs := List.append_cancel_right (hst'.symm.trans hs1)
        rw [← this]
        exact hwat'
    · have hf : ∀ n u, f ≠ .up n u := fun n u hc => hup ⟨n, u, hc⟩
      obtain ⟨hfl, fs'', h1, h2⟩ := istep_fine he hst hfine hf hub
      have hfe : fs'' = fs' := List.append_cancel_right (h1.symm.trans hst')
      subst hfe
      have hv : norm (m.get r) = m.get r := by
        rcases hval with hv | ⟨u, l, hc⟩
        · exact hv
        · cases hc; exact absurd rfl (hf r u)
      refine ⟨⟨hr, hub, by rw [hfl.kind]; exact h.base.kind, by rw [hfl.alive]; exact h.base.live, hobs⟩,
        fs'', b, h1, hb, h2, hwat', .inl ?_⟩
      rw [hfl.get]
      exact hv

theorem VState.shows [Inhabited S] {r : Nat} {norm : V → V} {L : List Nat} {d : Nat} {m : M V S}
    (h : VState r norm L d m) {st : List (Frame V)} (hst : m.stack = .user :: st) :
    norm (m.get r) = m.get r := by
  obtain ⟨fs, b, hst', _, _, _, hv | ⟨u, l, rfl⟩⟩ := h.stack
  · exact hv
  · rw [hst] at hst'; cases hst'

/-- A callback begins to write a normal value. -/
theorem VState.enter [Inhabited S] {r : Nat} {norm : V → V} {L : List Nat} {m m1 : M V S}
    (h : Base r L m) {st : List (Frame V)} (hst : m.stack = .user :: st) {u : V} (hu : norm u = u)
    (hs : ustep m (.set r u) = some m1) : VState r norm L m.stack.length m1 := by
  obtain ⟨rfl, hb⟩ := h.set hst hs
  refine ⟨hb, [.up r u], m.stack, rfl, rfl, ?_, ?_, .inr ⟨u, [], rfl⟩⟩
  · intro f hf
    rw [List.mem_singleton.1 hf]
    exact ⟨rfl, hu⟩
  · intro n w prev hm
    simp at hm

/-- It has returned. -/
theorem VState.leave [Inhabited S] {r : Nat} {norm : V → V} {L : List Nat} {d : Nat} {m m2 m3 : M V S}
    (h : VState r norm L d m) (hd : d < m.stack.length) {st : List (Frame V)} (hst : m.stack = .user :: st)
    (hb : Base r L m2) (hg : ∀ n, (m2.g.node n).obs = (m.g.node n).obs)
    (hv : norm (m2.get r) = m2.get r) (hst2 : m2.stack = m.stack)
    (hret : ustep m2 .ret = some m3) : VState r norm L d m3 := by
  obtain ⟨rfl, hb3⟩ := hb.ret (hst2.trans hst) hret
  obtain ⟨fs, b, hs, hbl, hfine, hwat, _⟩ := h.stack
  cases fs with
  | nil => rw [hs] at hd; simp at hd; omega
  | cons f fs =>
    rw [hst] at hs
    cases hs
    refine ⟨hb3, fs, b, rfl, hbl, fun f hf => hfine f (List.mem_cons_of_mem _ hf), ?_, .inl hv⟩
    intro n w prev hm
    show w ∈ (m2.g.node n).obs
    rw [hg]
    exact hwat n w prev (List.mem_cons_of_mem _ hm)

theorem set_begins_graph [Inhabited S] {m m1 : M V S} {n : Nat} {v : V} (h : ustep m (.set n v) = some m1) :
    m1.g = m.g := by
  unfold ustep at h
  split at h
  · cases h
  · split at h
    · simp only at h
      split at h
      · cases h; rfl
      · cases h
    · cases h

theorem Corrects.obs [Inhabited S] {P : Writes V} {d : Nat} {m m' : M V S} (h : Corrects P d m m') (n : Nat) :
    (m'.g.node n).obs = (m.g.node n).obs := by
  induction h with
  | refl => rfl
  | lib _ he _ ih => rw [ih, istep_obs he]
  | callback _ hst hset _ hst2 hret _ ih1 ih2 =>
    rw [ih2, ret_stack (hst2.trans hst) hret]
    show _ = _
    rw [ih1, set_begins_graph hset]

/-- The callbacks correct the value, or do nothing. -/
def Normalizers (norm : V → V) (ψ : Nat → V → V) : Prop :=
  (∀ x, norm (norm x) = norm x) ∧ ∀ w, ψ w = norm ∨ ψ w = id

theorem Normalizers.same {norm : V → V} {ψ : Nat → V → V} (h : Normalizers norm ψ) (w : Nat) {x : V}
    (hx : norm x = x) : ψ w x = x := by
  rcases h.2 w with e | e <;> rw [e]
  · exact hx
  · rfl

theorem VState.run [Inhabited S] {r : Nat} {norm : V → V} {ψ : Nat → V → V} (hψ : Normalizers norm ψ)
    {L : List Nat} {d : Nat} {m m' : M V S} (h : Corrects (corrects r ψ) d m m') :
    VState r norm L d m → VState r norm L d m' := by
  induction h with
  | refl => exact id
  | lib hd he _ ih => exact fun hv => ih (hv.lib hd he)
  | @callback d m m1 m2 m3 m4 n w prev st hd hst hset hn hst2 hret _ ih1 ih2 =>
    intro hv
    have hx := hv.shows hst
    have h2 := ih1 (VState.enter hv.base hst (u := (corrects r ψ).value w m.get)
      (by show norm (ψ w (m.get r)) = ψ w (m.get r); rw [hψ.same w hx]; exact hx) hset)
    exact ih2 (hv.leave hd hst h2.base (fun n => by rw [hn.obs, set_begins_graph hset]) (h2.shows (hst2.trans hst))
      hst2 hret)

/-! ### Before the value is corrected -/

/-- A running callback of the state is one of these. -/
def Within (r : Nat) (l : List Nat) (b : List (Frame V)) : Prop :=
  ∀ n w prev st, b = .user :: .obs n (some w) prev :: st → n = r ∧ w ∈ l

/-- The state shows any value, and is calling the callbacks up to the one that corrects it. -/
structure IState [Inhabited S] (r : Nat) (l1 : List Nat) (w0 : Nat) (l2 : List Nat) (d : Nat) (m : M V S) :
    Prop where
  base : Base r (l1 ++ w0 :: l2) m
  stack : ∃ b, b.length = d ∧ Within r (l1 ++ [w0]) b ∧ ((∃ u, m.stack = .up r u :: b) ∨
    m.stack = .notify r :: b ∨
    (∃ prev, m.stack = .obs r none prev :: b) ∨
    (∃ w prev, w ∈ l1 ∧ m.stack = .obs r (some w) prev :: b) ∨
    (∃ w prev, w ∈ l1 ++ [w0] ∧ m.stack = .user :: .obs r (some w) prev :: b) ∨
    m.stack = b)

theorem after_next {w0 : Nat} {l2 : List Nat} : ∀ {l1 : List Nat} {w : Nat}, w ∈ l1 →
    (l1 ++ w0 :: l2).Nodup →
    ∃ w' rest, after w (l1 ++ w0 :: l2) = some (w' :: rest) ∧ w' ∈ l1 ++ [w0] := by
  intro l1
  induction l1 with
  | nil => intro w h; cases h
  | cons a l1 ih =>
    intro w hw hnd
    simp only [List.cons_append, after]
    by_cases hwa : a = w
    · rw [if_pos hwa]
      cases l1 with
      | nil => exact ⟨w0, l2, rfl, by simp⟩
      | cons a' l1 => exact ⟨a', l1 ++ w0 :: l2, rfl, by simp⟩
    · rw [if_neg hwa]
      have hw' : w ∈ l1 := by
        rcases List.mem_cons.1 hw with h | h
        · exact absurd h.symm hwa
        · exact h
      obtain ⟨w', rest, h1, h2⟩ := ih hw' (by simp only [List.cons_append, List.nodup_cons] at hnd; exact hnd.2)
      exact ⟨w', rest, h1, List.mem_cons_of_mem _ h2⟩

theorem IState.lib [Inhabited S] {r : Nat} {l1 : List Nat} {w0 : Nat} {l2 : List Nat} {d : Nat} {m m' : M V S}
    (h : IState r l1 w0 l2 d m) (hd : d < m.stack.length) (he : istep m = some m') :
    IState r l1 w0 l2 d m' := by
  have hr : Reach m' := .step h.base.reach (.lib he)
  have hi := reach_inv h.base.reach h.base.ub
  have hobs : (m'.g.node r).obs = l1 ++ w0 :: l2 := by rw [istep_obs he]; exact h.base.obs
  have hcall : ∀ {cur prev b w rest}, m.stack = .obs r cur prev :: b → b.length = d →
      Within r (l1 ++ [w0]) b →
      remaining cur (m.g.node r).obs = some (w :: rest) → w ∈ l1 ++ [w0] → IState r l1 w0 l2 d m' := by
    intro cur prev b w rest hs hb hin hrem hw
    unfold istep at he
    rw [hs] at he
    simp only [h.base.ub, Bool.false_eq_true, if_false, hrem, Option.some.injEq] at he
    subst he
    exact ⟨⟨hr, rfl, h.base.kind, h.base.live, h.base.obs⟩, b, hb, hin,
      .inr (.inr (.inr (.inr (.inl ⟨w, prev, hw, rfl⟩))))⟩
  obtain ⟨b, hb, hin, ⟨u, hs⟩ | hs | ⟨prev, hs⟩ | ⟨w, prev, hw, hs⟩ | ⟨w, prev, hw, hs⟩ | hs⟩ := h.stack
  · obtain ⟨m1, he1, hs1, hub1, hsame, -⟩ := up_state hi h.base.ub hs h.base.kind h.base.live
    rw [he] at he1
    cases he1
    exact ⟨⟨hr, hub1, by rw [hsame.kind]; exact h.base.kind, by rw [hsame.alive]; exact h.base.live, hobs⟩,
      b, hb, hin, .inr (.inl hs1)⟩
  · unfold istep at he
    rw [hs] at he
    simp only [h.base.ub, Bool.false_eq_true, if_false] at he
    split at he
    · simp only [Option.some.injEq] at he
      subst he
      exact ⟨⟨hr, rfl, by simp [h.base.kind], by simp [h.base.live], hobs⟩, b, hb, hin,
        .inr (.inr (.inl ⟨_, rfl⟩))⟩
    · simp only [Option.some.injEq] at he
      subst he
      exact ⟨⟨hr, rfl, h.base.kind, h.base.live, h.base.obs⟩, b, hb, hin, .inr (.inr (.inr (.inr (.inr rfl))))⟩
  · cases l1 with
    | nil => exact hcall hs hb hin (w := w0) (rest := l2) (by rw [h.base.obs]; rfl) (by simp)
    | cons a l1 => exact hcall hs hb hin (w := a) (rest := l1 ++ w0 :: l2) (by rw [h.base.obs]; rfl) (by simp)
  · obtain ⟨w', rest, h1, h2⟩ := after_next (w0 := w0) (l2 := l2) hw (by rw [← h.base.obs]; exact hi.obs.nodup r)
    exact hcall hs hb hin (w := w') (rest := rest) (by rw [h.base.obs]; exact h1) h2
  · unfold istep at he
    rw [hs] at he
    split at he <;> cases he
  · rw [hs] at hd; omega

theorem IState.enter [Inhabited S] {r : Nat} {l1 : List Nat} {w0 : Nat} {l2 : List Nat} {m m1 : M V S}
    (h : Base r (l1 ++ w0 :: l2) m) {st : List (Frame V)} (hst : m.stack = .user :: st)
    (hin : Within r (l1 ++ [w0]) m.stack) {u : V}
    (hs : ustep m (.set r u) = some m1) : IState r l1 w0 l2 m.stack.length m1 := by
  obtain ⟨rfl, hb⟩ := h.set hst hs
  exact ⟨hb, m.stack, rfl, hin, .inl ⟨u, rfl⟩⟩

theorem IState.within [Inhabited S] {r : Nat} {l1 : List Nat} {w0 : Nat} {l2 : List Nat} {d : Nat} {m : M V S}
    (h : IState r l1 w0 l2 d m) : Within r (l1 ++ [w0]) m.stack := by
  obtain ⟨b, hb, hin, ⟨u, hs⟩ | hs | ⟨prev', hs⟩ | ⟨w', prev', hw, hs⟩ | ⟨w', prev', hw, hs⟩ | hs⟩ := h.stack
  · intro n w prev st hst; rw [hst] at hs; cases hs
  · intro n w prev st hst; rw [hst] at hs; cases hs
  · intro n w prev st hst; rw [hst] at hs; cases hs
  · intro n w prev st hst; rw [hst] at hs; cases hs
  · intro n w prev st hst; rw [hst] at hs; cases hs; exact ⟨rfl, hw⟩
  · rw [hs]; exact hin

/-- After a callback: the loop goes on, before the callback that corrects the value, or with a normal one. -/
theorem IState.leave [Inhabited S] {r : Nat} {norm : V → V} {ψ : Nat → V → V} (hψ : Normalizers norm ψ)
    {l1 : List Nat} {w0 : Nat} (hw0 : ψ w0 = norm) {l2 : List Nat}
    {d : Nat} {m m1 m2 m3 : M V S} (h : IState r l1 w0 l2 d m) (hd : d < m.stack.length) {n w : Nat} {prev : Bool}
    {st : List (Frame V)} (hst : m.stack = .user :: .obs n (some w) prev :: st)
    (hset : ustep m (.set r (ψ w (m.get r))) = some m1)
    (hn : Corrects (corrects r ψ) m.stack.length m1 m2) (hst2 : m2.stack = m.stack)
    (hb2 : Base r (l1 ++ w0 :: l2) m2)
    (hret : ustep m2 .ret = some m3) :
    IState r l1 w0 l2 d m3 ∨ VState r norm (l1 ++ w0 :: l2) d m3 := by
  obtain ⟨rfl, hb3⟩ := hb2.ret (hst2.trans hst) hret
  obtain ⟨b, hb, hin, ⟨u, hs⟩ | hs | ⟨prev', hs⟩ | ⟨w', prev', hw, hs⟩ | ⟨w', prev', hw, hs⟩ | hs⟩ := h.stack
  · rw [hst] at hs; cases hs
  · rw [hst] at hs; cases hs
  · rw [hst] at hs; cases hs
  · rw [hst] at hs; cases hs
  · rw [hst] at hs
    simp only [List.cons.injEq, Frame.obs.injEq, Option.some.injEq, true_and] at hs
    obtain ⟨⟨rfl, rfl, rfl⟩, rfl⟩ := hs
    by_cases hl : w ∈ l1 ∧ ψ w ≠ norm
    · exact .inl ⟨hb3, st, hb, hin, .inr (.inr (.inr (.inl ⟨w, prev, hl.1, rfl⟩)))⟩
    · have hnorm : ψ w = norm := by
        by_cases hc : ψ w = norm
        · exact hc
        · rcases List.mem_append.1 hw with h1 | h1
          · exact absurd ⟨h1, hc⟩ hl
          · rw [List.mem_singleton.1 h1]; exact hw0
      refine .inr ⟨hb3, [.obs n (some w) prev], st, rfl, hb, by simp [Fine], ?_, .inl ?_⟩
      · intro n' w' prev' hm
        simp only [List.mem_singleton, Frame.obs.injEq, Option.some.injEq] at hm
        obtain ⟨rfl, rfl, rfl⟩ := hm
        show w' ∈ (m2.g.node n').obs
        rw [hb2.obs]
        rcases List.mem_append.1 hw with h1 | h1
        · exact List.mem_append_left _ h1
        · rw [List.mem_singleton.1 h1]; simp
      · have hv := VState.run hψ hn (VState.enter (norm := norm) h.base hst
          (by rw [hnorm]; exact hψ.1 _) hset)
        exact hv.shows (hst2.trans hst)
  · rw [hs] at hd; omega

theorem IState.run [Inhabited S] {r : Nat} {norm : V → V} {ψ : Nat → V → V} (hψ : Normalizers norm ψ)
    {l1 : List Nat} {w0 : Nat} (hw0 : ψ w0 = norm) {l2 : List Nat} {d : Nat} {m m' : M V S}
    (h : Corrects (corrects r ψ) d m m') :
    IState r l1 w0 l2 d m → IState r l1 w0 l2 d m' ∨ VState r norm (l1 ++ w0 :: l2) d m' := by
  induction h with
  | refl => exact .inl
  | lib hd he _ ih => exact fun hv => ih (hv.lib hd he)
  | @callback d m m1 m2 m3 m4 n w prev st hd hst hset hn hst2 hret hrest ih1 ih2 =>
    intro hi
    have hb2 : Base r (l1 ++ w0 :: l2) m2 := by
      rcases ih1 (IState.enter hi.base hst hi.within hset) with h | h
      · exact h.base
      · exact h.base
    rcases hi.leave hψ hw0 hd hst hset hn hst2 hb2 hret with h | h
    · exact ih2 h
    · exact .inr (VState.run hψ hrest h)

/-- What is seen on the way. -/
def Sees (r : Nat) (norm : V → V) (l : List Nat) (m : M V S) : Prop :=
  ∀ n w prev st, m.stack = .user :: .obs n (some w) prev :: st →
    norm (m.get r) = m.get r ∨ (n = r ∧ w ∈ l)

theorem VState.sees [Inhabited S] {r : Nat} {norm : V → V} {ψ : Nat → V → V} (hψ : Normalizers norm ψ)
    {L l : List Nat} {d : Nat} {m m' : M V S} (h : Passes (corrects r ψ) d m m') :
    VState r norm L d m → Sees r norm l m' := by
  induction h with
  | here => exact fun hv n w prev st hst => .inl (hv.shows hst)
  | lib hd he _ ih => exact fun hv => ih (hv.lib hd he)
  | @inside d m m1 m' n w prev st hd hst hset _ ih =>
    intro hv
    have hx := hv.shows hst
    exact ih (VState.enter hv.base hst (u := (corrects r ψ).value w m.get)
      (by show norm (ψ w (m.get r)) = ψ w (m.get r); rw [hψ.same w hx]; exact hx) hset)
  | @callback d m m1 m2 m3 m' n w prev st hd hst hset hn hst2 hret _ ih =>
    intro hv
    exact ih (VState.run hψ (.callback hd hst hset hn hst2 hret (.refl _ _)) hv)

theorem IState.sees [Inhabited S] {r : Nat} {norm : V → V} {ψ : Nat → V → V} (hψ : Normalizers norm ψ)
    {l1 : List Nat} {w0 : Nat} (hw0 : ψ w0 = norm) {l2 : List Nat} {d : Nat} {m m' : M V S}
    (h : Passes (corrects r ψ) d m m') :
    IState r l1 w0 l2 d m → Sees r norm (l1 ++ [w0]) m' := by
  induction h with
  | here =>
    exact fun hi n w prev st hst => .inr (hi.within n w prev st hst)
  | lib hd he _ ih => exact fun hv => ih (hv.lib hd he)
  | inside hd hst hset _ ih => exact fun hi => ih (IState.enter hi.base hst hi.within hset)
  | callback hd hst hset hn hst2 hret hp ih =>
    intro hi
    rcases IState.run hψ hw0 (.callback hd hst hset hn hst2 hret (.refl _ _)) hi with h | h
    · exact ih h
    · exact VState.sees hψ hp h

/-- Callbacks that bring the value of an automatic state into a certain form, and callbacks that do nothing.
Whenever a callback runs in the course of `set`, the state shows a value in this form, except for callbacks
that are attached to the state itself, at or before the first one that corrects the value. -/
theorem C109_hidden [Inhabited S] {m m1 m' : M V S} (h : Reach m) (hrest : m.AtRest) {r : Nat} (hl : m.Live r)
    (hk : (m.g.node r).kind = .state true) (norm : V → V) (hidem : ∀ x, norm (norm x) = norm x)
    (ψ : Nat → V → V) (hψ : ∀ w, ψ w = norm ∨ ψ w = id) {l1 l2 : List Nat} {w0 : Nat}
    (hobs : (m.g.node r).obs = l1 ++ w0 :: l2) (hw0 : ψ w0 = norm) {v : V}
    (h1 : ustep m (.set r v) = some m1) (hp : Passes (corrects r ψ) m.stack.length m1 m')
    {n w : Nat} {prev : Bool} {st : List (Frame V)} (hrun : m'.stack = .user :: .obs n (some w) prev :: st) :
    norm (m'.get r) = m'.get r ∨ (n = r ∧ w ∈ l1 ++ [w0]) :=
  IState.sees ⟨hidem, hψ⟩ hw0 hp
    (IState.enter ⟨h, hrest.2, hk, hl, hobs⟩ hrest.1 (by rw [hrest.1]; intro n w prev st hc; cases hc) h1)
    n w prev st hrun

/-- In particular callbacks of other readers see only values in this form, and so do callbacks that were
attached to the state later. -/
theorem C109_later [Inhabited S] {m m1 m' : M V S} (h : Reach m) (hrest : m.AtRest) {r : Nat} (hl : m.Live r)
    (hk : (m.g.node r).kind = .state true) (norm : V → V) (hidem : ∀ x, norm (norm x) = norm x)
    (ψ : Nat → V → V) (hψ : ∀ w, ψ w = norm ∨ ψ w = id) {l1 l2 : List Nat} {w0 : Nat}
    (hobs : (m.g.node r).obs = l1 ++ w0 :: l2) (hw0 : ψ w0 = norm) {v : V}
    (h1 : ustep m (.set r v) = some m1) (hp : Passes (corrects r ψ) m.stack.length m1 m')
    {n w : Nat} {prev : Bool} {st : List (Frame V)} (hrun : m'.stack = .user :: .obs n (some w) prev :: st)
    (hw : n ≠ r ∨ w ∈ l2) : norm (m'.get r) = m'.get r := by
  rcases C109_hidden h hrest hl hk norm hidem ψ hψ hobs hw0 h1 hp hrun with h2 | ⟨h2, h3⟩
  · exact h2
  · rcases hw with hw | hw
    · exact absurd h2 hw
    · have hnd := (reach_inv h hrest.2).obs.nodup r
      rw [hobs] at hnd
      have : (l1 ++ w0 :: l2) = (l1 ++ [w0]) ++ l2 := by simp
      rw [this] at hnd
      exact absurd rfl ((List.nodup_append.1 hnd).2.2 w h3 w hw)

/-! ### Example -/

theorem libTo_passes [Inhabited S] (P : Writes V) (d k : Nat) (m : M V S) : Passes P d m (libTo d k m) := by
  induction k generalizing m with
  | zero => exact .here _ _
  | succ k ih =>
    simp only [libTo]
    split
    · rename_i hd
      split
      · rename_i m' he; exact .lib hd he (ih m')
      · exact .here _ _
    · exact .here _ _

/-- 25 is set, and the first callback is called. -/
def exSeen : M Nat Nat := libTo 1 200 ((ustep exValid (.set 0 25)).getD exValid)

/-- The second callback keeps the value below 10. -/
def exClamp (w : Nat) : Nat → Nat := if w = 1 then fun x => min x 9 else id

/-- A callback that was attached before sees the value that was set. -/
theorem C109_before_false : ∃ m m1 m' : M Nat Nat, Reach m ∧ m.AtRest ∧ m.Correctable 0 ∧
    (m.g.node 0).obs = [0] ++ 1 :: [] ∧ ustep m (.set 0 25) = some m1 ∧
    Passes (corrects 0 exClamp) m.stack.length m1 m' ∧
    (∃ prev st, m'.stack = .user :: .obs 0 (some 0) prev :: st) ∧ m'.get 0 = 25 :=
  ⟨exValid, _, exSeen, exec_reach _, ⟨by decide +kernel, by decide +kernel⟩, exValid_correctable,
    by decide +kernel, some_getD exValid (by decide +kernel), libTo_passes _ _ _ _,
    ⟨false, [.user], by decide +kernel⟩, by decide +kernel⟩

/-- The program, executed. -/
def runC [Inhabited S] (P : Writes V) : Nat → Nat → M V S → M V S
  | 0, _, m => m
  | k + 1, d, m =>
    if d < m.stack.length then
      match m.stack with
      | .user :: .obs _ (some w) _ :: _ =>
        match ustep m (.set (P.target w) (P.value w m.get)) with
        | some m1 =>
          if (runC P k m.stack.length m1).stack = m.stack then
            match ustep (runC P k m.stack.length m1) .ret with
            | some m3 => runC P k d m3
            | none => m
          else m
        | none => m
      | _ => match istep m with
        | some m' => runC P k d m'
        | none => m
    else m

theorem runC_corrects [Inhabited S] (P : Writes V) (k : Nat) : ∀ d (m : M V S), Corrects P d m (runC P k d m) := by
  induction k with
  | zero => exact fun d m => .refl _ _
  | succ k ih =>
    intro d m
    simp only [runC]
    split
    · rename_i hd
      split
      · rename_i hst
        split
        · rename_i m1 hset
          split
          · rename_i hs2
            split
            · rename_i m3 hret
              exact .callback hd hst hset (ih _ _) hs2 hret (ih _ _)
            · exact .refl _ _
          · exact .refl _ _
        · exact .refl _ _
      · split
        · rename_i m' he; exact .lib hd he (ih _ _)
        · exact .refl _ _
    · exact .refl _ _

/-- The first moment with a property. -/
def seekC [Inhabited S] (P : Writes V) (p : M V S → Bool) : Nat → Nat → M V S → Option (M V S)
  | 0, _, _ => none
  | k + 1, d, m =>
    if p m then some m
    else if d < m.stack.length then
      match m.stack with
      | .user :: .obs _ (some w) _ :: _ =>
        match ustep m (.set (P.target w) (P.value w m.get)) with
        | some m1 =>
          match seekC P p k m.stack.length m1 with
          | some m' => some m'
          | none =>
            if (runC P k m.stack.length m1).stack = m.stack then
              match ustep (runC P k m.stack.length m1) .ret with
              | some m3 => seekC P p k d m3
              | none => none
            else none
        | none => none
      | _ => match istep m with
        | some m' => seekC P p k d m'
        | none => none
    else none

theorem seekC_passes [Inhabited S] (P : Writes V) (p : M V S → Bool) (k : Nat) : ∀ d (m m' : M V S),
    seekC P p k d m = some m' → Passes P d m m' ∧ p m' = true := by
  induction k with
  | zero => intro d m m' h; cases h
  | succ k ih =>
    intro d m m' h
    simp only [seekC] at h
    split at h
    · rename_i hp; cases h; exact ⟨.here _ _, hp⟩
    · split at h
      · rename_i hd
        split at h
        · rename_i hst
          split at h
          · rename_i m1 hset
            split at h
            · rename_i m'' hs
              cases h
              exact ⟨.inside hd hst hset (ih _ _ _ hs).1, (ih _ _ _ hs).2⟩
            · split at h
              · rename_i hs2
                split at h
                · rename_i m3 hret
                  exact ⟨.callback hd hst hset (runC_corrects _ _ _ _) hs2 hret (ih _ _ _ h).1, (ih _ _ _ h).2⟩
                · cases h
              · cases h
          · cases h
        · split at h
          · rename_i m1 he
            exact ⟨.lib hd he (ih _ _ _ h).1, (ih _ _ _ h).2⟩
          · cases h
      · cases h

/-- The callback of the other reader is running. -/
def exOther (m : M Nat Nat) : Bool :=
  match m.stack with
  | .user :: .obs 1 (some 2) _ :: _ => decide (m.get 0 = 9 ∧ m.get 1 = 18)
  | _ => false

/-- The callback of the reader that shows the double is called by the same call of `set`. -/
example : ∃ m1 m' : M Nat Nat, ustep exValid (.set 0 25) = some m1 ∧
    Passes (corrects 0 exClamp) exValid.stack.length m1 m' ∧
    (∃ prev st, m'.stack = .user :: .obs 1 (some 2) prev :: st) ∧ m'.get 0 = 9 ∧ m'.get 1 = 18 := by
  have h := seekC_passes (corrects 0 exClamp) exOther 40 exValid.stack.length
    ((ustep exValid (.set 0 25)).getD exValid) _ (some_getD exValid (by decide +kernel))
  refine ⟨_, _, some_getD exValid (by decide +kernel), h.1, ?_⟩
  have h2 := h.2
  unfold exOther at h2
  split at h2
  · rename_i prev st hst
    exact ⟨⟨prev, st, hst⟩, of_decide_eq_true h2⟩
  · cases h2

end Verif.Graph
