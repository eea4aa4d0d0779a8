import Verif.Graph.Props11

/-
Callbacks that write: when do their writes come to an end?
-/

set_option linter.unusedSectionVars false

namespace Verif.Graph

variable {V S : Type} [DecidableEq V]

/-- The program: each callback `w` writes `value w σ` to the cursor `target w`, where `σ` is what all
readers show, and returns.  `Corrects P d m m'`: a call that was made with a stack of depth `d` proceeds
from `m` to `m'`. -/
structure Writes (V : Type) where
  target : Nat → Nat
  value : Nat → (Nat → V) → V

/-- See `Writes`. -/
inductive Corrects [Inhabited S] (P : Writes V) : Nat → M V S → M V S → Prop where
  | refl (d m) : Corrects P d m m
  | lib {d m m1 m2} : d < m.stack.length → istep m = some m1 → Corrects P d m1 m2 → Corrects P d m m2
  | callback {d m m1 m2 m3 m4 n w prev st} : d < m.stack.length →
      m.stack = .user :: .obs n (some w) prev :: st →
      ustep m (.set (P.target w) (P.value w m.get)) = some m1 → Corrects P m.stack.length m1 m2 →
      m2.stack = m.stack → ustep m2 .ret = some m3 → Corrects P d m3 m4 → Corrects P d m m4

theorem Corrects.trace [Inhabited S] {P : Writes V} {d : Nat} {m m' : M V S} (h : Corrects P d m m') :
    ∃ ops : List (Op V S), Trace m ops m' ∧ ∀ op ∈ ops, op.attaches = false := by
  induction h with
  | refl => exact ⟨[], .refl _, by simp⟩
  | lib _ he _ ih =>
    obtain ⟨ops, h1, h2⟩ := ih
    exact ⟨ops, .lib he h1, h2⟩
  | callback _ _ hu _ _ hret _ ih1 ih2 =>
    obtain ⟨ops1, h1, h2⟩ := ih1
    obtain ⟨ops2, h3, h4⟩ := ih2
    refine ⟨.set _ _ :: (ops1 ++ .ret :: ops2), .user hu (h1.append (.user hret h3)), ?_⟩
    intro op hop
    rcases List.mem_cons.1 hop with rfl | hop
    · rfl
    · rcases List.mem_append.1 hop with hop | hop
      · exact h2 op hop
      · rcases List.mem_cons.1 hop with rfl | hop
        · rfl
        · exact h4 op hop

theorem Corrects.runs [Inhabited S] {P : Writes V} {d : Nat} {m m' : M V S} (h : Corrects P d m m') :
    Runs m m' := by
  obtain ⟨ops, h1, _⟩ := h.trace
  exact h1.runs

theorem Corrects.trans [Inhabited S] {P : Writes V} {d : Nat} {m m' m'' : M V S} (h : Corrects P d m m')
    (k : Corrects P d m' m'') : Corrects P d m m'' := by
  induction h with
  | refl => exact k
  | lib h1 h2 _ ih => exact .lib h1 h2 (ih k)
  | callback h1 h2 h3 h4 h5 h6 _ _ ih => exact .callback h1 h2 h3 h4 h5 h6 (ih k)

/-! ### Notification -/

/-- A frame of a notification. -/
def Frame.inner : Frame V → Prop
  | .notify _ => True
  | .kids _ _ _ _ _ => True
  | .obs _ _ _ => True
  | _ => False

/-- Only flags of nodes and links to them change. -/
structure Flags (g g' : Graph V S) : Prop where
  size : g'.size = g.size
  kind : ∀ n, (g'.node n).kind = (g.node n).kind
  parents : ∀ n, (g'.node n).parents = (g.node n).parents
  cmp : ∀ n, (g'.node n).cmp = (g.node n).cmp
  alive : ∀ n, (g'.node n).alive = (g.node n).alive
  last : ∀ n, (g'.node n).last = (g.node n).last
  current : ∀ n, (g'.node n).current = (g.node n).current
  dirty : ∀ n, (g'.node n).dirty = (g.node n).dirty
  needs : ∀ n, (g.node n).needsNotify = false → (g'.node n).needsNotify = false

theorem Flags.refl (g : Graph V S) : Flags g g :=
  ⟨rfl, fun _ => rfl, fun _ => rfl, fun _ => rfl, fun _ => rfl, fun _ => rfl, fun _ => rfl, fun _ => rfl,
    fun _ h => h⟩

theorem flags_mod (g : Graph V S) (k : Nat) (f : Node V S → Node V S)
    (h1 : (f (g.node k)).kind = (g.node k).kind) (h2 : (f (g.node k)).parents = (g.node k).parents)
    (h3 : (f (g.node k)).cmp = (g.node k).cmp) (h4 : (f (g.node k)).alive = (g.node k).alive)
    (h5 : (f (g.node k)).last = (g.node k).last) (h6 : (f (g.node k)).current = (g.node k).current)
    (h7 : (f (g.node k)).dirty = (g.node k).dirty)
    (h8 : (g.node k).needsNotify = false → (f (g.node k)).needsNotify = false) :
    Flags g (g.mod k f) := by
  refine ⟨rfl, ?_, ?_, ?_, ?_, ?_, ?_, ?_, ?_⟩
  all_goals
    intro n
    by_cases hn : n = k
    · subst hn; rw [Graph.mod_self]; assumption
    · rw [Graph.mod_ne _ _ hn]
      try exact id

theorem Flags.trans {a b c : Graph V S} (h : Flags a b) (k : Flags b c) : Flags a c :=
  ⟨k.size.trans h.size, fun n => (k.kind n).trans (h.kind n), fun n => (k.parents n).trans (h.parents n),
    fun n => (k.cmp n).trans (h.cmp n), fun n => (k.alive n).trans (h.alive n),
    fun n => (k.last n).trans (h.last n), fun n => (k.current n).trans (h.current n),
    fun n => (k.dirty n).trans (h.dirty n), fun n hn => k.needs n (h.needs n hn)⟩

/-- A library step of a notification: flags change, or a callback is called. -/
theorem istep_inner {m m' : M V S} (he : istep m = some m') {f : Frame V} {fs b : List (Frame V)}
    (hst : m.stack = f :: (fs ++ b)) (hn : ∀ f' ∈ f :: fs, f'.inner) (hub : m'.ub = false) :
    Flags m.g m'.g ∧
    ((m'.seen = m.seen ∧ ∃ fs', m'.stack = fs' ++ b ∧ ∀ f ∈ fs', f.inner) ∨
      ∃ n w prev l, m'.stack = .user :: .obs n (some w) prev :: (l ++ b) ∧ (∀ f ∈ l, f.inner) ∧
        w ∈ (m.g.node n).obs ∧ m'.seen = fun w' => if w' = w then some (m.get n) else m.seen w') := by
  have hfs : ∀ f ∈ fs, f.inner := fun f hf => hn f (List.mem_cons_of_mem _ hf)
  have hcons : ∀ f : Frame V, f.inner → ∀ f' ∈ f :: fs, f'.inner := by
    intro f hf f' hf'
    rcases List.mem_cons.1 hf' with rfl | h
    · exact hf
    · exact hfs f' h
  have hf := hn f (List.mem_cons_self ..)
  unfold istep at he
  rw [hst] at he
  split at he
  · cases he
  · cases f with
    | notify n =>
      simp only at he
      split at he
      · cases he
        dsimp only
        refine ⟨?_, .inl ⟨rfl, _ :: fs, rfl, hcons _ trivial⟩⟩
        refine flags_mod _ _ _ ?_ ?_ ?_ ?_ ?_ ?_ ?_ ?_ <;> first | rfl | exact fun _ => rfl
      · cases he; exact ⟨.refl _, .inl ⟨rfl, fs, rfl, hfs⟩⟩
    | obs n cur prev =>
      simp only at he
      split at he
      · cases he; cases hub
      · cases he; exact ⟨.refl _, .inl ⟨rfl, _ :: fs, rfl, hcons _ trivial⟩⟩
      · rename_i w rest hr
        cases he
        exact ⟨.refl _, .inr ⟨n, w, prev, fs, rfl, hfs, remaining_mem hr (List.mem_cons_self ..), rfl⟩⟩
    | kids n i size prev garbage =>
      simp only at he
      split at he
      · split at he
        · cases he; cases hub
        · split at he
          · cases he
            refine ⟨.refl _, .inl ⟨rfl, _ :: _ :: fs, rfl, ?_⟩⟩
            intro f' hf'
            rcases List.mem_cons.1 hf' with rfl | h
            · trivial
            · exact hcons (.kids n (i + 1) size prev garbage) trivial f' h
          · cases he; exact ⟨.refl _, .inl ⟨rfl, _ :: fs, rfl, hcons _ trivial⟩⟩
      · cases he
        dsimp only
        refine ⟨?_, .inl ⟨rfl, fs, rfl, hfs⟩⟩
        refine Flags.trans (b := if _ then _ else _) ?_ (flags_mod _ _ _ rfl rfl rfl rfl rfl rfl rfl id)
        split
        · exact flags_mod _ _ _ rfl rfl rfl rfl rfl rfl rfl id
        · exact .refl _
    | user => cases hf
    | roots _ => cases hf
    | up _ _ => cases hf
    | ups _ => cases hf
    | setterRest _ _ => cases hf

/-! ### Writing -/

/-- The states that callbacks write to: automatic, of a type that can be compared, and not destroyed. -/
def AutoStates (R : Nat → Prop) (g : Graph V S) : Prop :=
  ∀ r, R r → (g.node r).kind = .state true ∧ (g.node r).cmp = true ∧ (g.node r).alive = true ∧
    (g.node r).parents = []

/-- They have nothing to publish and nothing to announce. -/
def Calm (R : Nat → Prop) (g : Graph V S) : Prop :=
  ∀ r, R r → (g.node r).dirty = false ∧ (g.node r).last = (g.node r).current ∧
    (g.node r).needsNotify = false

theorem AutoStates.flags {R : Nat → Prop} {g g' : Graph V S} (h : AutoStates R g) (k : Flags g g') :
    AutoStates R g' := fun r hr => by
  rw [k.kind, k.cmp, k.alive, k.parents]; exact h r hr

theorem Calm.flags {R : Nat → Prop} {g g' : Graph V S} (h : Calm R g) (k : Flags g g') : Calm R g' :=
  fun r hr => by
  rw [k.dirty, k.last, k.current]; exact ⟨(h r hr).1, (h r hr).2.1, k.needs r (h r hr).2.2⟩

theorem AutoStates.same {R : Nat → Prop} {g g' : Graph V S} (h : AutoStates R g) (k : Same g g') :
    AutoStates R g' := fun r hr => by
  rw [k.kind, k.cmp, k.alive, k.parents]; exact h r hr

/-- The values, after one was written. -/
def upd (σ : Nat → V) (r : Nat) (v : V) : Nat → V := fun r' => if r' = r then v else σ r'

/-- What `set` does with an automatic state first. -/
theorem up_state [Inhabited S] {m : M V S} (hi : Inv m) (hub : m.ub = false) {r : Nat} {u : V}
    {b : List (Frame V)} (hst : m.stack = .up r u :: b) (hk : (m.g.node r).kind = .state true)
    (ha : (m.g.node r).alive = true) :
    ∃ m', istep m = some m' ∧ m'.stack = .notify r :: b ∧ m'.ub = false ∧ Same m.g m'.g ∧
      m'.seen = m.seen ∧ m'.get r = u ∧ (m'.g.node r).current = u ∧ (m'.g.node r).dirty = false ∧
      (∀ r', r' ≠ r → (m.g.node r').parents = [] → m'.g.node r' = m.g.node r') ∧
      ((m.g.node r).cmp = true → (m.g.node r).current = u → (m.g.node r).dirty = false → m'.g = m.g) := by
  have hs := (pushDown_touch m.g r u).same
  have hwf : WF (m.g.pushDown r u) := hs.wf hi.wf
  have hlt : r < (m.g.pushDown r u).size := by rw [hs.size]; exact hi.wf.alive_lt ha
  have hfr : Fresh (m.g.pushDown r u) := (pushDown_touch m.g r u).fresh hi.fresh
  obtain ⟨h1, h2, h3⟩ := sendDown_state (m.g.pushDown r u) r hwf hfr hlt (by rw [hs.kind]; exact hk)
  have he : istep m = some { m with g := (m.g.pushDown r u).sendDown r, stack := .notify r :: b } := by
    unfold istep
    simp only [hub, hst, hk, Bool.false_eq_true, if_false, if_true]
  refine ⟨_, he, rfl, hub, hs.trans (sendDown_moves _ r).same, rfl, ?_, ?_, h3, ?_, ?_⟩
  · exact h1.trans (pushDown_current _ _ _)
  · exact h2.trans (pushDown_current _ _ _)
  · intro r' hr' hp
    show ((m.g.pushDown r u).sendDown r).node r' = _
    rw [sendDown_root _ r hwf hr' (by rw [hs.parents]; exact hp), (pushDown_touch m.g r u).other r' hr']
  · intro hc hu hd
    have hp : m.g.pushDown r u = m.g := by
      unfold Graph.pushDown
      rw [if_neg]
      rw [hc, hu]; simp
    show (m.g.pushDown r u).sendDown r = m.g
    rw [hp]
    have hrc : m.g.recompute r = m.g := by unfold Graph.recompute; rw [hk]
    rw [sendDown_nothing m.g r (hi.wf.alive_lt ha) (by rw [hrc]; exact hd), hrc]

/-! ### Runs of corrections -/

/-- What the callbacks write makes the measure smaller. -/
structure Conv (P : Writes V) (R : Nat → Prop) (μ : (Nat → V) → Nat) (Q : (Nat → V) → Prop)
    (Φ : Nat → V → Nat → Prop) (obs : Nat → List Nat) : Prop where
  target : ∀ w, R (P.target w)
  mu : ∀ σ σ', (∀ r, R r → σ' r = σ r) → μ σ' = μ σ
  ext : ∀ σ σ', (∀ r, R r → σ' r = σ r) → Q σ → Q σ'
  less : ∀ w σ, P.value w σ = σ (P.target w) ∨ μ (upd σ (P.target w) (P.value w σ)) < μ σ
  keep : ∀ w σ, Q σ → Q (upd σ (P.target w) (P.value w σ))
  mono : ∀ w x j j', j' ≤ j → Φ w x j → Φ w x j'
  same : ∀ n w σ, w ∈ obs n → P.value w σ = σ (P.target w) → Φ w (σ n) (μ σ)
  done : ∀ n w σ j, w ∈ obs n → P.value w σ ≠ σ (P.target w) → j < μ σ → Φ w (σ n) j

/-- Of the proof: the invariant between calls. -/
structure Good (R : Nat → Prop) (obs : Nat → List Nat) (m : M V S) : Prop where
  ub : m.ub = false
  auto : AutoStates R m.g
  calm : Calm R m.g
  obs : ∀ n, (m.g.node n).obs = obs n

/-- The run so far: `o` is the callback that was running when it began. -/
structure Went (μ : (Nat → V) → Nat) (Φ : Nat → V → Nat → Prop) (k : Nat) (o : Option Nat) (m m2 : M V S) :
    Prop where
  le : μ m2.get ≤ k
  seen : ∀ w, (m2.seen w = m.seen w ∧ o ≠ some w) ∨ ∀ x, m2.seen w = some x → Φ w x (μ m2.get)

theorem Flags.get {m m' : M V S} (h : Flags m.g m'.g) : m'.get = m.get := funext fun n => h.last n

/-- The stack during the notification of a call that was made with stack `b`; callback `o` is running. -/
def Shape (obs : Nat → List Nat) (m : M V S) (b : List (Frame V)) : Option Nat → Prop
  | none => ∃ fs, m.stack = fs ++ b ∧ (∀ f ∈ fs, f.inner) ∧ Watching m.g fs
  | some w => ∃ n prev l, m.stack = .user :: .obs n (some w) prev :: (l ++ b) ∧ (∀ f ∈ l, f.inner) ∧
    Watching m.g (.obs n (some w) prev :: l) ∧ w ∈ obs n ∧ m.seen w = some (m.get n)

theorem set_begins [Inhabited S] {m : M V S} (hub : m.ub = false) {st : List (Frame V)}
    (hst : m.stack = .user :: st) {r : Nat} {v : V} (hv : m.g.valid r = true)
    (hk : (m.g.node r).kind = .state true) :
    ustep m (.set r v) = some { m with stack := .up r v :: m.stack } := by
  unfold ustep
  simp only [hub, hst, Bool.false_eq_true, if_false]
  rw [if_pos]
  simp [Graph.canWrite, hv, hk]

/-- Writing what is there. -/
theorem write_same [Inhabited S] {P : Writes V} {R : Nat → Prop} {obs : Nat → List Nat} {m : M V S}
    (hr : Reach m) (hg : Good R obs m) {r : Nat} (hR : R r) {u : V} {b : List (Frame V)}
    (hst : m.stack = .up r u :: b) (hu : u = m.get r) :
    ∃ m2, Corrects P b.length m m2 ∧ m2.stack = b ∧ Good R obs m2 ∧ m2.get = m.get ∧ m2.seen = m.seen := by
  obtain ⟨hk, hc, ha, hp⟩ := hg.auto r hR
  obtain ⟨hd, hl, hn⟩ := hg.calm r hR
  obtain ⟨m1, he, hs1, hub1, -, hseen, -, -, -, -, hsame⟩ := up_state (reach_inv hr hg.ub) hg.ub hst hk ha
  have hgr : m1.g = m.g := hsame hc (by rw [← hl]; exact hu.symm) hd
  have he2 : istep m1 = some { m1 with stack := b } := by
    unfold istep
    simp only [hub1, hs1, Bool.false_eq_true, if_false]
    rw [hgr, hn]
    simp
  refine ⟨_, .lib (by rw [hst]; simp) he (.lib (by rw [hs1]; simp) he2 (.refl _ _)), rfl,
    ⟨hub1, ?_, ?_, ?_⟩, ?_, hseen⟩
  · show AutoStates R m1.g
    rw [hgr]; exact hg.auto
  · show Calm R m1.g
    rw [hgr]; exact hg.calm
  · show ∀ n, (m1.g.node n).obs = _
    rw [hgr]; exact hg.obs
  · funext n
    show (m1.g.node n).last = (m.g.node n).last
    rw [hgr]

/-- What a write leads to. -/
def Writing [Inhabited S] (P : Writes V) (R : Nat → Prop) (μ : (Nat → V) → Nat) (Q : (Nat → V) → Prop)
    (Φ : Nat → V → Nat → Prop) (obs : Nat → List Nat) (m : M V S) (r : Nat) (u : V) (b : List (Frame V)) :
    Prop :=
  ∃ m2, Corrects P b.length m m2 ∧ m2.stack = b ∧ Good R obs m2 ∧ Q m2.get ∧
    Went μ Φ (μ (upd m.get r u)) none m m2

theorem Watching.good {R : Nat → Prop} {obs : Nat → List Nat} {m m' : M V S} (h : Good R obs m)
    (h' : Good R obs m') {fs : List (Frame V)} (hw : Watching m.g fs) : Watching m'.g fs :=
  fun n w prev hm => by rw [h'.obs, ← h.obs]; exact hw n w prev hm

theorem loop_ends [Inhabited S] {P : Writes V} {R : Nat → Prop} {μ : (Nat → V) → Nat}
    {Q : (Nat → V) → Prop} {Φ : Nat → V → Nat → Prop} {obs : Nat → List Nat} (hc : Conv P R μ Q Φ obs)
    {k : Nat} (hA : ∀ (m : M V S) r u b, Reach m → Good R obs m → R r → m.stack = .up r u :: b →
      Ends true b.length m → Q (upd m.get r u) → μ (upd m.get r u) < k → Writing P R μ Q Φ obs m r u b)
    {b : List (Frame V)} {m : M V S} (hE : Ends true b.length m) :
    ∀ o, Reach m → Good R obs m → Shape obs m b o → Q m.get → μ m.get ≤ k →
    ∃ m2, Corrects P b.length m m2 ∧ m2.stack = b ∧ Good R obs m2 ∧ Q m2.get ∧
      Went μ Φ (μ m.get) o m m2 := by
  induction hE with
  | intro m _ ih =>
    intro o hr hg hsh hQ hle
    cases o with
    | none =>
      obtain ⟨fs, hst, hin, hwat⟩ := hsh
      cases fs with
      | nil => exact ⟨m, .refl _ _, hst, hg, hQ, Nat.le_refl _, fun w => .inl ⟨rfl, by simp⟩⟩
      | cons f fs =>
        have hd : b.length < m.stack.length := by rw [hst]; simp; omega
        have hf : f ≠ .user := by rintro rfl; exact hin _ (List.mem_cons_self ..)
        obtain ⟨m', he⟩ := istep_some hg.ub hst hf
        have hub' : m'.ub = false := by
          cases hu : m'.ub with
          | false => rfl
          | true =>
            obtain ⟨n, w, prev, st, hs, hno⟩ := C17_no_overrun hr he hu
            rw [hst] at hs
            cases hs
            exact absurd (hwat n w prev (List.mem_cons_self ..)) hno
        obtain ⟨hfl, hcase⟩ := istep_inner he hst hin hub'
        have hg' : Good R obs m' :=
          ⟨hub', hg.auto.flags hfl, hg.calm.flags hfl, fun n => by rw [istep_obs he]; exact hg.obs n⟩
        have hget : m'.get = m.get := hfl.get
        have hr' : Reach m' := .step hr (.lib he)
        obtain ⟨fs', hst', hwat'⟩ := istep_watching he hst hub' hwat
        rcases hcase with ⟨hseen, fs'', h1, h2⟩ | ⟨n, w, prev, l, h1, h2, h3, h4⟩
        · have hfe : fs'' = fs' := List.append_cancel_right (h1.symm.trans hst')
          subst hfe
          obtain ⟨m2, k1, k2, k3, k4, k5⟩ := ih m' (.lib hd he) none hr' hg' ⟨fs'', h1, h2, hwat'⟩
            (by rw [hget]; exact hQ) (by rw [hget]; exact hle)
          refine ⟨m2, .lib hd he k1, k2, k3, k4, by rw [← hget]; exact k5.le, fun w => ?_⟩
          have := k5.seen w
          rw [hseen] at this
          exact this
        · have hfe : fs' = .user :: .obs n (some w) prev :: l := by
            refine List.append_cancel_right (bs := b) (hst'.symm.trans ?_)
            exact h1
          subst hfe
          have hs' : m'.seen w = some (m'.get n) := by rw [h4, hget]; simp
          obtain ⟨m2, k1, k2, k3, k4, k5⟩ := ih m' (.lib hd he) (some w) hr' hg'
            ⟨n, prev, l, h1, h2, fun n w prev hm => hwat' n w prev (List.mem_cons_of_mem _ hm),
              by rw [← hg.obs]; exact h3, hs'⟩
            (by rw [hget]; exact hQ) (by rw [hget]; exact hle)
          refine ⟨m2, .lib hd he k1, k2, k3, k4, by rw [← hget]; exact k5.le, fun w' => ?_⟩
          rcases k5.seen w' with ⟨h5, h6⟩ | h5
          · refine .inl ⟨?_, by simp⟩
            rw [h5, h4]
            simp only
            rw [if_neg]
            rintro rfl
            exact h6 rfl
          · exact .inr h5
    | some w =>
      obtain ⟨n, prev, l, hst, hin, hwat, hw, hseen⟩ := hsh
      have hd : b.length < m.stack.length := by rw [hst]; simp; omega
      have hR := hc.target w
      obtain ⟨hk, -, ha, -⟩ := hg.auto _ hR
      have hi := reach_inv hr hg.ub
      have hv : m.g.valid (P.target w) = true := by
        unfold Graph.valid
        simp [ha, hi.wf.alive_lt ha]
      have hset := set_begins hg.ub hst (v := P.value w m.get) hv hk
      have hr1 := Reach.step hr (.user _ hset)
      have hE1 := call_ends hr hset rfl
      have hwr : ∃ m2, Corrects P m.stack.length { m with stack := .up (P.target w) (P.value w m.get) :: m.stack } m2 ∧
          m2.stack = m.stack ∧ Good R obs m2 ∧ Q m2.get ∧ μ m2.get ≤ μ m.get ∧
          Φ w (m.get n) (μ m2.get) ∧
          ∀ w, m2.seen w = m.seen w ∨ ∀ x, m2.seen w = some x → Φ w x (μ m2.get) := by
        by_cases hval : P.value w m.get = m.get (P.target w)
        · obtain ⟨m2, k1, k2, k3, k4, k5⟩ := write_same (P := P) (obs := obs) hr1
            ⟨hg.ub, hg.auto, hg.calm, hg.obs⟩ hR rfl hval
          have k4' : m2.get = m.get := k4
          refine ⟨m2, k1, k2, k3, by rw [k4']; exact hQ, by rw [k4']; exact Nat.le_refl _, ?_,
            fun w => .inl (by rw [k5])⟩
          rw [k4']
          exact hc.same n w _ hw hval
        · have hlt := (hc.less w m.get).resolve_left hval
          obtain ⟨m2, k1, k2, k3, k4, k5⟩ := hA _ _ _ _ hr1 ⟨hg.ub, hg.auto, hg.calm, hg.obs⟩ hR rfl hE1
            (hc.keep w _ hQ) (Nat.lt_of_lt_of_le hlt hle)
          have hlt' : μ m2.get < μ m.get := Nat.lt_of_le_of_lt k5.le hlt
          refine ⟨m2, k1, k2, k3, k4, Nat.le_of_lt hlt', hc.done n w _ _ hw hval hlt', fun w => ?_⟩
          rcases k5.seen w with ⟨h, _⟩ | h
          · exact .inl h
          · exact .inr h
      obtain ⟨m2, k1, k2, k3, k4, k5, k6, k7⟩ := hwr
      have hret : ustep m2 .ret = some { m2 with stack := .obs n (some w) prev :: (l ++ b) } := by
        unfold ustep
        rw [k2, hst, k3.ub]
        rfl
      have hnext : Next true b.length m { m2 with stack := .obs n (some w) prev :: (l ++ b) } := by
        obtain ⟨ops, t1, t2⟩ := k1.trace
        refine .callback rfl hd hst (.user hset t1) ?_ k2 hret
        intro op hop
        rcases List.mem_cons.1 hop with rfl | hop
        · rfl
        · exact t2 op hop
      have hg3 : Good R obs { m2 with stack := .obs n (some w) prev :: (l ++ b) } :=
        ⟨k3.ub, k3.auto, k3.calm, k3.obs⟩
      have hin3 : ∀ f ∈ Frame.obs n (some w) prev :: l, f.inner := by
        intro f hf
        rcases List.mem_cons.1 hf with rfl | hf
        · trivial
        · exact hin f hf
      obtain ⟨m4, j1, j2, j3, j4, j5⟩ := ih _ hnext none (hnext.runs.reach hr) hg3
        ⟨.obs n (some w) prev :: l, rfl, hin3, hwat.good hg hg3⟩ k4 (Nat.le_trans k5 hle)
      · have hle4 : μ m4.get ≤ μ m2.get := j5.le
        refine ⟨m4, .callback hd hst hset k1 k2 hret j1, j2, j3, j4, Nat.le_trans hle4 k5, fun w' => ?_⟩
        rcases j5.seen w' with ⟨h5, _⟩ | h5
        · have h5' : m4.seen w' = m2.seen w' := h5
          rcases k7 w' with h6 | h6
          · by_cases hww : w' = w
            · subst hww
              refine .inr fun x hx => ?_
              rw [h5', h6, hseen] at hx
              cases hx
              exact hc.mono _ _ _ _ hle4 k6
            · exact .inl ⟨h5'.trans h6, by simp only [ne_eq, Option.some.injEq]; exact fun h => hww h.symm⟩
          · exact .inr fun x hx => hc.mono _ _ _ _ hle4 (h6 x (h5' ▸ hx))
        · exact .inr h5

theorem writing [Inhabited S] {P : Writes V} {R : Nat → Prop} {μ : (Nat → V) → Nat}
    {Q : (Nat → V) → Prop} {Φ : Nat → V → Nat → Prop} {obs : Nat → List Nat} (hc : Conv P R μ Q Φ obs)
    (k : Nat) : ∀ (m : M V S) r u b, Reach m → Good R obs m → R r → m.stack = .up r u :: b →
      Ends true b.length m → Q (upd m.get r u) → μ (upd m.get r u) = k → Writing P R μ Q Φ obs m r u b := by
  induction k using Nat.strongRecOn with
  | ind k ih =>
    intro m r u b hr hg hR hst hE hQ hk
    by_cases hu : u = m.get r
    · obtain ⟨m2, k1, k2, k3, k4, k5⟩ := write_same (P := P) hr hg hR hst hu
      have hup : upd m.get r u = m.get := by
        funext r'
        unfold upd
        split
        · rename_i h; rw [h, hu]
        · rfl
      rw [hup] at hQ
      refine ⟨m2, k1, k2, k3, by rw [k4]; exact hQ, ?_, fun w => .inl ⟨by rw [k5], by simp⟩⟩
      rw [hup, k4]
      exact Nat.le_refl _
    · obtain ⟨hkind, hcmp, ha, hp⟩ := hg.auto r hR
      obtain ⟨m1, he, hs1, hub1, hsame, hseen, hget, hcur, hdirty, hother, -⟩ :=
        up_state (reach_inv hr hg.ub) hg.ub hst hkind ha
      have hd : b.length < m.stack.length := by rw [hst]; simp
      have hd1 : b.length < m1.stack.length := by rw [hs1]; simp
      have hgets : ∀ r', R r' → m1.get r' = upd m.get r u r' := by
        intro r' hR'
        unfold upd
        split
        · rename_i h; rw [h]; exact hget
        · rename_i h
          show (m1.g.node r').last = (m.g.node r').last
          rw [hother r' h (hg.auto r' hR').2.2.2]
      have hQ1 : Q m1.get := hc.ext _ _ hgets hQ
      have hmu1 : μ m1.get = k := (hc.mu _ _ hgets).trans hk
      have hr1 : Reach m1 := .step hr (.lib he)
      have hn1 : Next true b.length m m1 := .lib hd he
      have hE1 := hE.inv hn1
      have hobs1 : ∀ n, (m1.g.node n).obs = obs n := fun n => by rw [istep_obs he]; exact hg.obs n
      have hauto1 := hg.auto.same hsame
      have hcalm : ∀ r', R r' → r' ≠ r → (m1.g.node r').dirty = false ∧
          (m1.g.node r').last = (m1.g.node r').current ∧ (m1.g.node r').needsNotify = false := by
        intro r' hR' hne
        rw [hother r' hne (hg.auto r' hR').2.2.2]
        exact hg.calm r' hR'
      have hlast : (m1.g.node r).last = (m1.g.node r).current := by rw [hcur]; exact hget
      cases hnn : (m1.g.node r).needsNotify with
      | false =>
        have he2 : istep m1 = some { m1 with stack := b } := by
          unfold istep
          simp only [hub1, hs1, Bool.false_eq_true, if_false]
          rw [hnn]
          simp
        refine ⟨_, .lib hd he (.lib hd1 he2 (.refl _ _)), rfl, ⟨hub1, hauto1, ?_, hobs1⟩, hQ1, ?_,
          fun w => .inl ⟨by rw [← hseen], by simp⟩⟩
        · intro r' hR'
          by_cases hne : r' = r
          · subst hne; exact ⟨hdirty, hlast, hnn⟩
          · exact hcalm r' hR' hne
        · show μ m1.get ≤ _
          rw [hmu1, hk]
          exact Nat.le_refl _
      | true =>
        have he2 : istep m1 = some { m1 with
            g := m1.g.mod r fun x => { x with needsNotify := false, notifying := true }
            stack := .obs r none (m1.g.node r).notifying :: b } := by
          unfold istep
          simp only [hub1, hs1, Bool.false_eq_true, if_false]
          rw [hnn, hdirty]
          rfl
        obtain ⟨hfl, -⟩ := istep_inner he2 (fs := []) (b := b) hs1 (by simp [Frame.inner]) hub1
        have hg2 : Good R obs { m1 with
            g := m1.g.mod r fun x => { x with needsNotify := false, notifying := true }
            stack := .obs r none (m1.g.node r).notifying :: b } := by
          refine ⟨hub1, hauto1.flags hfl, ?_, fun n => by rw [istep_obs he2]; exact hobs1 n⟩
          intro r' hR'
          rw [hfl.dirty, hfl.last, hfl.current]
          by_cases hne : r' = r
          · subst hne; exact ⟨hdirty, hlast, by simp⟩
          · exact ⟨(hcalm r' hR' hne).1, (hcalm r' hR' hne).2.1, hfl.needs _ (hcalm r' hR' hne).2.2⟩
        obtain ⟨m2, k1, k2, k3, k4, k5⟩ := loop_ends hc (k := k)
          (fun m r u b h1 h2 h3 h4 h5 h6 h7 => ih _ h7 m r u b h1 h2 h3 h4 h5 h6 rfl)
          (hE1.inv (.lib hd1 he2)) none (.step hr1 (.lib he2)) hg2
          ⟨[.obs r none (m1.g.node r).notifying], rfl, by simp [Frame.inner], by
            intro n w prev hm; simp at hm⟩ (by rw [hfl.get]; exact hQ1) (by rw [hfl.get, hmu1]; exact Nat.le_refl _)
        refine ⟨m2, .lib hd he (.lib hd1 he2 k1), k2, k3, k4, ?_, fun w => ?_⟩
        · have := k5.le
          rw [hfl.get, hmu1] at this
          rw [hk]
          exact this
        · have := k5.seen w
          rw [← hseen]
          exact this

end Verif.Graph
