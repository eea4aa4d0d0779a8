import Verif.Graph.Zoom

/-
Helper lemmas on `with_setter`.
-/

set_option linter.unusedSectionVars false

namespace Verif.Graph

variable {V S : Type} [DecidableEq V]

/-! ### The flag that suppresses one recomputation -/

theorem pushDown_recomputed (g : Graph V S) (n : Nat) (v : V) (k : Nat) :
    ((g.pushDown n v).node k).recomputed = (g.node k).recomputed := by
  unfold Graph.pushDown
  split
  · by_cases h : k = n
    · subst h; rw [Graph.mod_self]
    · rw [Graph.mod_ne _ _ h]
  · rfl

theorem recompute_recomputed (g : Graph V S) (n k : Nat) (h : (g.node k).recomputed = false) :
    ((g.recompute n).node k).recomputed = false := by
  have hmod : ∀ f : Node V S → Node V S, ((f (g.node n)).recomputed = (g.node n).recomputed ∨
      (f (g.node n)).recomputed = false) → ((g.mod n f).node k).recomputed = false := by
    intro f hf
    by_cases hk : k = n
    · subst hk
      rw [Graph.mod_self]
      rcases hf with hf | hf
      · rw [hf, h]
      · exact hf
    · rw [Graph.mod_ne _ _ hk, h]
  unfold Graph.recompute
  split
  · exact h
  · exact h
  · rw [pushDown_recomputed]; exact hmod _ (.inl rfl)
  · split
    · exact h
    · rw [pushDown_recomputed]; exact h
  · dsimp only
    have main : ∀ (l : List V) (g' : Graph V S), (g'.node k).recomputed = false →
        ((l.foldl (fun g v => g.pushDown n v) g').node k).recomputed = false := by
      intro l
      induction l with
      | nil => intro g' h'; exact h'
      | cons v l ih =>
        intro g' h'
        exact ih _ (by rw [pushDown_recomputed]; exact h')
    exact main _ _ (hmod _ (.inl rfl))
  · split
    · exact hmod _ (.inr rfl)
    · split
      · rw [pushDown_recomputed]; exact h
      · exact h

theorem Moves.recomputed {g g' : Graph V S} (h : Moves g g') {k : Nat}
    (hk : (g.node k).recomputed = false) : (g'.node k).recomputed = false := by
  induction h with
  | refl => exact hk
  | recompute n _ ih => exact recompute_recomputed _ _ _ ih
  | publish n _ _ ih =>
    unfold Graph.publish
    by_cases h : k = n
    · subst h; rw [Graph.mod_self]; exact ih
    · rw [Graph.mod_ne _ _ h]; exact ih

theorem Recomputes.recomputed {g g' : Graph V S} (h : Recomputes g g') {k : Nat}
    (hk : (g.node k).recomputed = false) : (g'.node k).recomputed = false := by
  induction h with
  | refl => exact hk
  | step n _ ih => exact recompute_recomputed _ _ _ ih

theorem mod_recomputed (g : Graph V S) (n : Nat) (f : Node V S → Node V S)
    (h : (f (g.node n)).recomputed = (g.node n).recomputed) (k : Nat) :
    ((g.mod n f).node k).recomputed = (g.node k).recomputed := by
  by_cases hk : k = n
  · subst hk; rw [Graph.mod_self]; exact h
  · rw [Graph.mod_ne _ _ hk]

/-- After `recomputed_ = true`, the recomputation that follows resets the flag. -/
theorem suppressed {g : Graph V S} {n : Nat} {a} (hk : (g.node n).kind = .setter a) :
    (g.mod n fun x => { x with recomputed := true }).recompute n =
      g.mod n fun x => { x with recomputed := false } := by
  unfold Graph.recompute
  rw [Graph.mod_self]
  dsimp only
  rw [hk]
  dsimp only
  rw [if_pos rfl]
  unfold Graph.mod
  dsimp only
  congr 1
  funext m
  split <;> rfl

theorem istep_recomputed {m m' : M V S} (hi : Inv m) (he : istep m = some m') {k : Nat}
    (hk : (m.g.node k).recomputed = false) : (m'.g.node k).recomputed = false := by
  unfold istep at he
  split at he
  · cases he
  · split at he
    · split at he
      · cases he; dsimp only; rw [mod_recomputed]; exact hk; rfl
      · cases he; exact hk
    · split at he <;> (cases he; exact hk)
    · split at he
      · split at he
        · cases he; exact hk
        · split at he <;> (cases he; exact hk)
      · cases he
        dsimp only
        rw [mod_recomputed _ _ _ (by rfl)]
        split
        · unfold Graph.collect; rw [mod_recomputed _ _ _ (by rfl)]; exact hk
        · exact hk
    · cases he; exact hk
    · cases he; exact hk
    · split at he
      · split at he
        · cases he
          exact (sendDown_moves _ _).recomputed (by rw [pushDown_recomputed]; exact hk)
        · cases he; dsimp only; rw [pushDown_recomputed]; exact hk
      · cases he
        simp only
        split
        · exact (refresh_recomputes _ _).recomputed hk
        · exact hk
      · cases he; dsimp only; rw [mod_recomputed _ _ _ (by rfl)]; exact hk
      · cases he; exact hk
      · cases he; exact hk
    · cases he; exact hk
    · cases he; exact hk
    · rename_i n v st hst
      split at he
      · rename_i hkind
        cases he
        dsimp only
        have hal : (m.g.node n).alive = true :=
          hi.stack.holds (.setterRest n v) (by rw [hst]; exact List.mem_cons_self ..) n
            (List.mem_singleton.2 rfl)
        have hlt := hi.wf.alive_lt hal
        have hs := (pushDown_touch m.g n v).same
        have hsize : ((m.g.pushDown n v).mod n fun x => { x with recomputed := true }).size =
            m.g.size := hs.size
        have hk' : ((m.g.pushDown n v).node n).kind = .setter true := (hs.kind n).trans hkind
        have hrec : (((m.g.pushDown n v).mod n fun x => { x with recomputed := false }).node
            k).recomputed = false := by
          by_cases h : k = n
          · subst h; rw [Graph.mod_self]
          · rw [Graph.mod_ne _ _ h, pushDown_recomputed]; exact hk
        unfold Graph.sendDown
        rw [hsize]
        obtain ⟨j, hj⟩ : ∃ j, m.g.size = j + 1 := ⟨m.g.size - 1, by omega⟩
        rw [hj]
        simp only [Graph.sendDownN]
        rw [suppressed hk']
        split
        · rename_i hd
          refine (Moves.trans (.publish n (.refl _) hd) (foldl_moves ?_ _ _)).recomputed hrec
          intro g' c
          split
          · exact sendDownN_moves _ _ _
          · exact .refl g'
        · exact hrec
      · cases he; dsimp only; rw [pushDown_recomputed]; exact hk
    · cases he
    · cases he

theorem ustep_recomputed [Inhabited S] {m m' : M V S} (op : Op V S) (he : ustep m op = some m')
    {k : Nat} (hlt : k < m.g.size) (hk : (m.g.node k).recomputed = false) :
    (m'.g.node k).recomputed = false := by
  have hadd : ∀ x, ((m.g.add x).node k).recomputed = false := by
    intro x
    obtain ⟨j, hj, _⟩ := add_old m.g x (by omega : k ≠ m.g.size)
    rw [hj]; exact hk
  unfold ustep at he
  split at he
  · cases he
  · split at he
    case h_2 => cases he
    cases op with
    | newState => cases he; exact hadd _
    | newSensor => cases he; exact hadd _
    | newConstant => cases he; exact hadd _
    | newCalc => simp only at he; split at he <;> cases he; exact hadd _
    | newXform => simp only at he; split at he <;> cases he; exact hadd _
    | newSetter => simp only at he; split at he <;> cases he; exact hadd _
    | set => simp only at he; split at he <;> cases he; exact hk
    | update => simp only at he; split at he <;> cases he; exact hk
    | commit rs =>
      simp only at he; split at he <;> cases he
      exact (sendAll_moves rs m.g).recomputed hk
    | attach j i =>
      simp only at he; split at he <;> cases he
      dsimp only; rw [mod_recomputed]; exact hk; rfl
    | detach j w => cases he; dsimp only; rw [mod_recomputed]; exact hk; rfl
    | kill j =>
      simp only at he; split at he <;> cases he
      dsimp only; rw [mod_recomputed]; exact hk; rfl
    | ret => simp only at he; split at he <;> cases he; exact hk

theorem reach_recomputed [Inhabited S] {m : M V S} (h : Reach m) (hub : m.ub = false) :
    ∀ n, n < m.g.size → (m.g.node n).recomputed = false := by
  induction h with
  | start ltr dummy hd => intro n hn; simp [start] at hn
  | @step m m' hr hs ih =>
    have hub' := step_ub hs
    have hi := reach_inv hr hub'
    intro n hn
    by_cases hlt : n < m.g.size
    · cases hs with
      | lib he => exact istep_recomputed hi he (ih hub' n hlt)
      | user op he => exact ustep_recomputed op he hlt (ih hub' n hlt)
    · rcases step_size hs with h1 | ⟨x, hx⟩
      · omega
      · have hne : n = m.g.size := by
          have := hx.1 ▸ add_size m.g x
          omega
        subst hne
        rw [hx.1, add_new m.g x hx.2.1]
        rcases hx.2.2 with ⟨_, _, _, rfl⟩ | ⟨_, _, rfl⟩ | ⟨_, _, rfl⟩ | ⟨_, _, _, _, _, _, rfl⟩ |
          ⟨_, _, _, _, _, _, _, rfl⟩ | ⟨_, _, _, rfl⟩
        all_goals rfl

/-! ### The setter follows its source -/

/-- The setter `n` shows the value of its source `p`, and both are published. -/
def InSync (g : Graph V S) (p n : Nat) : Prop :=
  (g.node n).last = (g.node p).last ∧ (g.node n).current = (g.node p).current ∧
  (g.node p).last = (g.node p).current

/-- Nothing happened to the setter and its source, or they are in sync. -/
def Follows (p n : Nat) (g g' : Graph V S) : Prop :=
  ((g'.node p).last = (g.node p).last ∧ (g'.node p).current = (g.node p).current ∧
    g'.node n = g.node n) ∨ InSync g' p n

theorem Follows.refl (p n : Nat) (g : Graph V S) : Follows p n g g := .inl ⟨rfl, rfl, rfl⟩

theorem Follows.trans {p n : Nat} {a b c : Graph V S} (h : Follows p n a b) (k : Follows p n b c) :
    Follows p n a c := by
  rcases k with ⟨k1, k2, k3⟩ | k
  · rcases h with ⟨h1, h2, h3⟩ | ⟨h1, h2, h3⟩
    · exact .inl ⟨k1.trans h1, k2.trans h2, k3.trans h3⟩
    · right
      refine ⟨?_, ?_, ?_⟩
      · rw [k3, k1]; exact h1
      · rw [k3, k2]; exact h2
      · rw [k1, k2]; exact h3
  · exact .inr k

/-- A setter is recomputed from its source. -/
theorem setter_recompute {g : Graph V S} {n p : Nat} {a} (hk : (g.node n).kind = .setter a)
    (hp : (g.node n).parents = [p]) (hr : (g.node n).recomputed = false) :
    g.recompute n = g.pushDown n (g.node p).current := by
  unfold Graph.recompute
  rw [hk]
  dsimp only
  rw [if_neg (by rw [hr]; decide), hp]
  rfl

theorem setter_sync {g : Graph V S} (w : WF g) (hf : Fresh g) {n p : Nat} {a}
    (hk : (g.node n).kind = .setter a) (hp : (g.node n).parents = [p])
    (hr : (g.node n).recomputed = false) (hpp : (g.node p).last = (g.node p).current) (k : Nat) :
    InSync (g.sendDownN (k + 1) n) p n := by
  have hpn := w.lt n p (by rw [hp]; exact List.mem_cons_self ..)
  have hp' : (g.sendDownN (k + 1) n).node p = g.node p :=
    sendDownN_other _ _ _ w (by omega) fun q hq => by have := w.lt p q hq; omega
  have hn' := sendDownN_self k g n w
  rw [setter_recompute hk hp hr] at hn'
  have hcur := pushDown_current g n (g.node p).current
  have hf' := (pushDown_touch g n (g.node p).current).fresh hf n
  unfold InSync
  rw [hp']
  split at hn'
  · have h1 : ((g.sendDownN (k + 1) n).node n).last = (g.node p).current ∧
        ((g.sendDownN (k + 1) n).node n).current = (g.node p).current := by
      rw [hn']
      unfold Graph.publish
      rw [Graph.mod_self]
      exact ⟨hcur, hcur⟩
    exact ⟨h1.1.trans hpp.symm, h1.2, hpp⟩
  · rename_i hd
    have hc : ((g.pushDown n (g.node p).current).node n).chg = false := by
      cases hc : ((g.pushDown n (g.node p).current).node n).chg with
      | false => rfl
      | true => exact absurd (hf'.1 hc) hd
    have h1 := hf'.2.2 hc
    rw [hn']
    exact ⟨by rw [h1, hcur, hpp], hcur, hpp⟩

theorem sendDownN_follows (k : Nat) : ∀ (g : Graph V S) (x n p : Nat) (a : Bool), WF g → Fresh g →
    (g.node n).kind = .setter a → (g.node n).parents = [p] → (g.node n).recomputed = false →
    (g.node n).alive = true → x ≠ n → g.size - x ≤ k →
    Follows p n g (g.sendDownN k x) := by
  induction k with
  | zero => intro g x n p a _ _ _ _ _ _ _ _; exact .refl p n g
  | succ k ih =>
    intro g x n p a w hf hk hp hr ha hx hsz
    have hpn := w.lt n p (by rw [hp]; exact List.mem_cons_self ..)
    have hnlt := w.alive_lt ha
    have hlink := w.linked n ha p (by rw [hp]; exact List.mem_cons_self ..)
    simp only [Graph.sendDownN]
    have ht := recompute_touch g x
    by_cases hxp : x = p
    · subst hxp
      split
      · rename_i hd
        have hs : Same g ((g.recompute x).publish x) := ht.same.trans (publish_same _ x)
        have hf2 : Fresh ((g.recompute x).publish x) :=
          (Moves.publish x (.refl _) hd).fresh (ht.fresh hf)
        have hx2 : (((g.recompute x).publish x).node x).last =
            (((g.recompute x).publish x).node x).current := by
          unfold Graph.publish; rw [Graph.mod_self]
        have hn2 : ((g.recompute x).publish x).node n = g.node n := by
          rw [publish_other _ (by omega), ht.other n (by omega)]
        have walk : ∀ (l : List Nat) (g' : Graph V S), Same g g' → Fresh g' →
            (g'.node n).recomputed = false → (g'.node x).last = (g'.node x).current →
            (∀ c ∈ l, x < c) → (n ∈ l ∨ InSync g' x n) →
            InSync (l.foldl (fun g c => if (g.node c).alive then g.sendDownN k c else g) g') x n := by
          intro l
          induction l with
          | nil =>
            intro g' _ _ _ _ _ h
            rcases h with h | h
            · cases h
            · exact h
          | cons c l ihl =>
            intro g' hs' hf' hr' hx' hl h
            have hc := hl c (List.mem_cons_self ..)
            have hw' := hs'.wf w
            simp only [List.foldl_cons]
            by_cases hcn : c = n
            · subst hcn
              rw [if_pos ((hs'.alive c).trans ha)]
              obtain ⟨j, hj⟩ : ∃ j, k = j + 1 := ⟨k - 1, by omega⟩
              have hsync := setter_sync hw' hf' ((hs'.kind c).trans hk) ((hs'.parents c).trans hp)
                hr' hx' j
              rw [← hj] at hsync
              have hmv := sendDownN_moves k g' c
              exact ihl _ (hs'.trans hmv.same) (hmv.fresh hf') (hmv.recomputed hr') hsync.2.2
                (fun c' hc' => hl c' (List.mem_cons_of_mem _ hc')) (.inr hsync)
            · have hrest : n ∈ l ∨ InSync g' x n := by
                rcases h with h | h
                · rcases List.mem_cons.1 h with h | h
                  · exact absurd h.symm hcn
                  · exact .inl h
                · exact .inr h
              split
              · have hmv := sendDownN_moves k g' c
                have e1 : (g'.sendDownN k c).node x = g'.node x :=
                  sendDownN_other _ _ _ hw' (by omega) fun q hq => by
                    have := hw'.lt x q hq; omega
                have e2 : (g'.sendDownN k c).node n = g'.node n :=
                  sendDownN_other _ _ _ hw' (fun e => hcn e.symm) fun q hq => by
                    rw [hs'.parents, hp, List.mem_singleton] at hq
                    omega
                refine ihl _ (hs'.trans hmv.same) (hmv.fresh hf') (hmv.recomputed hr')
                  (by rw [e1]; exact hx') (fun c' hc' => hl c' (List.mem_cons_of_mem _ hc')) ?_
                rcases hrest with h | h
                · exact .inl h
                · right; unfold InSync; rw [e1, e2]; exact h
              · exact ihl _ hs' hf' hr' hx' (fun c' hc' => hl c' (List.mem_cons_of_mem _ hc')) hrest
        right
        refine walk _ _ hs hf2 (by rw [hn2]; exact hr) hx2 (fun c hc => ?_) (.inl ?_)
        · rw [hs.children] at hc
          exact (w.child_lt hc).1
        · rw [hs.children]; exact hlink
      · rename_i hd
        left
        refine ⟨ht.last, ?_, ht.other n (by omega)⟩
        apply Classical.byContradiction
        intro hne
        exact hd ((ht.fresh hf x).1 (ht.changed hne))
    · have hn1 : (g.recompute x).node n = g.node n := ht.other n (fun e => hx e.symm)
      have hp1 : (g.recompute x).node p = g.node p := ht.other p (fun e => hxp e.symm)
      split
      · rename_i hd
        have hs : Same g ((g.recompute x).publish x) := ht.same.trans (publish_same _ x)
        have hf2 : Fresh ((g.recompute x).publish x) :=
          (Moves.publish x (.refl _) hd).fresh (ht.fresh hf)
        have hfol : Follows p n g ((g.recompute x).publish x) := by
          left
          rw [publish_other _ (fun e => hx e.symm), publish_other _ (fun e => hxp e.symm), hn1, hp1]
          exact ⟨rfl, rfl, rfl⟩
        have walk : ∀ (l : List Nat) (g' : Graph V S), Same g g' → Fresh g' →
            (g'.node n).recomputed = false → (∀ c ∈ l, x < c ∧ c ≠ n) → Follows p n g g' →
            Follows p n g
              (l.foldl (fun g c => if (g.node c).alive then g.sendDownN k c else g) g') := by
          intro l
          induction l with
          | nil => intro g' _ _ _ _ h; exact h
          | cons c l ihl =>
            intro g' hs' hf' hr' hl h
            have hc := hl c (List.mem_cons_self ..)
            have hw' := hs'.wf w
            simp only [List.foldl_cons]
            split
            · have hmv := sendDownN_moves k g' c
              refine ihl _ (hs'.trans hmv.same) (hmv.fresh hf') (hmv.recomputed hr')
                (fun c' hc' => hl c' (List.mem_cons_of_mem _ hc')) (h.trans ?_)
              refine ih g' c n p a hw' hf' ((hs'.kind n).trans hk) ((hs'.parents n).trans hp) hr'
                ((hs'.alive n).trans ha) hc.2 ?_
              rw [hs'.size]
              omega
            · exact ihl _ hs' hf' hr' (fun c' hc' => hl c' (List.mem_cons_of_mem _ hc')) h
        refine walk _ _ hs hf2 ?_ (fun c hc => ?_) hfol
        · rw [publish_other _ (fun e => hx e.symm), hn1]; exact hr
        · rw [hs.children] at hc
          refine ⟨(w.child_lt hc).1, fun e => ?_⟩
          subst e
          have := (w.child x c hc).1
          rw [hp, List.mem_singleton] at this
          exact hxp this
      · left
        rw [hn1, hp1]
        exact ⟨rfl, rfl, rfl⟩

theorem sendAll_follows (rs : List Nat) : ∀ (g : Graph V S) {n p : Nat} {a : Bool}, WF g → Fresh g →
    (g.node n).kind = .setter a → (g.node n).parents = [p] → (g.node n).recomputed = false →
    (g.node n).alive = true → (∀ r ∈ rs, (g.node r).parents = []) →
    Follows p n g (rs.foldl (fun g r => g.sendDown r) g) := by
  induction rs with
  | nil => intro g n p a _ _ _ _ _ _ _; exact .refl p n g
  | cons r rs ih =>
    intro g n p a w hf hk hp hr ha hrs
    have hmv := sendDown_moves g r
    have hs := hmv.same
    simp only [List.foldl_cons]
    refine (sendDownN_follows g.size g r n p a w hf hk hp hr ha ?_ (by omega)).trans
      (ih _ (hs.wf w) (hmv.fresh hf) ((hs.kind n).trans hk) ((hs.parents n).trans hp)
        (hmv.recomputed hr) ((hs.alive n).trans ha)
        fun r' hr' => (hs.parents r').trans (hrs r' (List.mem_cons_of_mem _ hr')))
    rintro rfl
    rw [hrs r (List.mem_cons_self ..)] at hp
    cases hp

/-! ### The log of a call -/

theorem istep_calls {m m' : M V S} {f : Frame V} {st : List (Frame V)} (hst : m.stack = f :: st)
    (hf : f.idle = true) (he : istep m = some m') :
    ∃ l, m'.log = m.log ++ l ∧ ∀ e ∈ l, ∃ w k u, e = .call w k u := by
  have same : m'.log = m.log → ∃ l, m'.log = m.log ++ l ∧ ∀ e ∈ l, ∃ w k u, e = Ev.call w k u :=
    fun h => ⟨[], by rw [h, List.append_nil], by simp⟩
  unfold istep at he
  rw [hst] at he
  split at he
  · cases he
  · split at he
    · split at he <;> (cases he; exact same rfl)
    · split at he
      · cases he; exact same rfl
      · cases he; exact same rfl
      · cases he
        exact ⟨_, rfl, fun e he => by rw [List.mem_singleton] at he; exact ⟨_, _, _, he⟩⟩
    · split at he
      · split at he
        · cases he; exact same rfl
        · split at he <;> (cases he; exact same rfl)
      · cases he; exact same rfl
    · cases he; exact same rfl
    · cases he; exact same rfl
    · rename_i heq; cases heq; cases hf
    · cases he; exact same rfl
    · cases he; exact same rfl
    · rename_i heq; cases heq; cases hf
    · cases he
    · cases he

theorem QRun.onlyCalls [Inhabited S] {g0 : Graph V S} {b : List (Frame V)}
    (hb : ∃ st, b = .user :: st) {l0 : List (Ev V)} {fs l} {m m' : M V S}
    (hr : QRun b.length m m') (hi : Inv m) (h : Once g0 b l0 fs l m) (hub : m'.ub = false) :
    ∃ l', m'.log = m.log ++ l' ∧ ∀ e ∈ l', ∃ w k u, e = .call w k u := by
  induction hr generalizing fs l with
  | refl m => exact ⟨[], (List.append_nil _).symm, by simp⟩
  | @lib m m1 m2 he hr ih =>
    have hne : fs ≠ [] := by
      intro e
      subst e
      obtain ⟨st, rfl⟩ := hb
      rw [istep_user h.stack] at he
      cases he
    obtain ⟨fs', l', h'⟩ := istep_once hi h hne he
    obtain ⟨l1, h1, h2⟩ := ih (step_inv hi (.lib he) (hr.runs.ub hub)) h' hub
    cases fs with
    | nil => exact absurd rfl hne
    | cons f fs =>
      obtain ⟨l2, h3, h4⟩ := istep_calls (f := f) (st := fs ++ b) h.stack
        (h.idle f (List.mem_cons_self ..)) he
      refine ⟨l2 ++ l1, by rw [h1, h3, List.append_assoc], fun e he => ?_⟩
      rcases List.mem_append.1 he with he | he
      · exact h4 e he
      · exact h2 e he
  | @user m m1 m2 op hd hq he hr ih =>
    have hne : fs ≠ [] := by
      intro e
      subst e
      rw [h.stack] at hd
      exact Nat.lt_irrefl _ hd
    obtain ⟨fs', h'⟩ := ustep_once hi h hne hq he
    obtain ⟨l1, h1, h2⟩ := ih (step_inv hi (.user op he) (hr.runs.ub hub)) h' hub
    exact ⟨l1, by rw [h1, (ustep_log he).1], h2⟩

/-- Is `n` a setter, `setter.hpp:26-74`?  For examples. -/
def Graph.isSetter (g : Graph V S) (n : Nat) (auto : Bool) : Bool :=
  match (g.node n).kind with
  | .setter a => a == auto
  | _ => false

theorem isSetter_setter {g : Graph V S} {n : Nat} {auto : Bool} (h : g.isSetter n auto = true) :
    (g.node n).kind = .setter auto := by
  unfold Graph.isSetter at h
  split at h
  · rename_i h1; rw [h1, eq_of_beq h]
  · cases h

end Verif.Graph
