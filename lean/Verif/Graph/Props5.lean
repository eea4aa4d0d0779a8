import Verif.Graph.Setter

/-
Property C22 of the node graph: cursors made with `with_setter`.  `Verif.Graph.Spec` has the vocabulary.
The call `set(v)` on such a cursor runs the setter function (user code, which may do anything) and then
the rest of `set`.
-/

set_option linter.unusedSectionVars false

namespace Verif.Graph

variable {V S : Type} [DecidableEq V]

/-- `set(v)` calls the setter function, with `v`, and has done nothing else so far. -/
theorem C22_enter [Inhabited S] {m m1 : M V S} {n : Nat} {a : Bool}
    (hk : (m.g.node n).kind = .setter a) {v : V} (h : ustep m (.set n v) = some m1) :
    istep m1 = some { m with
      stack := .user :: .setterRest n v :: m.stack
      log := m.log ++ [.setterCall n v] } := by
  have hub := (ustep_ub h).1
  obtain ⟨v', rfl⟩ := set_step h rfl
  have hv : v' = v := by
    unfold ustep at h
    rw [if_neg (by rw [hub]; decide)] at h
    split at h
    · dsimp only at h
      split at h
      · simp only [Option.some.injEq, M.mk.injEq, List.cons.injEq, Frame.up.injEq] at h
        exact h.2.1.1.2.symm
      · cases h
    · cases h
  subst hv
  unfold istep
  dsimp only
  rw [if_neg (by rw [hub]; decide), hk]

/-- When the setter function returns, whatever it has done: with `automatic_tag` and callbacks that
write nothing, the cursor shows `v` when `set(v)` returns, and the setter function is not called
again. -/
theorem C22_automatic [Inhabited S] {m m1 m2 : M V S} (h : Reach m) {n : Nat} {v : V}
    {st : List (Frame V)} (hst : m.stack = .user :: .setterRest n v :: .user :: st)
    (hk : (m.g.node n).kind = .setter true) (hret : ustep m .ret = some m1)
    (hrun : QRun (Frame.user :: st).length m1 m2) (hend : m2.stack = .user :: st)
    (hub : m2.ub = false) :
    m2.get n = v ∧ ∃ l, m2.log = m.log ++ l ∧ ∀ e ∈ l, ∃ w k u, e = .call w k u := by
  have hub0 := (ustep_ub hret).1
  have hi := reach_inv h hub0
  have hi1 := step_inv hi (.user _ hret) (ustep_ub hret).2
  have hm1 : m1 = { m with stack := .setterRest n v :: .user :: st } := by
    unfold ustep at hret
    rw [if_neg (by rw [hub0]; decide), hst] at hret
    cases hret; rfl
  have he : istep m1 = some { m with
      g := ((m.g.pushDown n v).mod n fun x => { x with recomputed := true }).sendDown n
      stack := .notify n :: .user :: st } := by
    rw [hm1]
    unfold istep
    dsimp only
    rw [if_neg (by rw [hub0]; decide), hk]
  have hlive : m.Live n := hi.stack.holds (.setterRest n v)
    (by rw [hst]; exact List.mem_cons_of_mem _ (List.mem_cons_self ..)) n (List.mem_singleton.2 rfl)
  have hlt := hi.wf.alive_lt hlive
  cases hrun with
  | refl => rw [hm1] at hend; cases hend
  | user op hd hq hu _ =>
    obtain ⟨st', h1⟩ := ustep_user hu
    rw [hm1] at h1; cases h1
  | lib he' hrun =>
    rw [he] at he'
    cases he'
    have hi2 := step_inv hi1 (.lib he) (hrun.runs.ub hub)
    have ho := once_start (m := { m with
      g := ((m.g.pushDown n v).mod n fun x => { x with recomputed := true }).sendDown n
      stack := .notify n :: .user :: st }) (fs := [.notify n]) (b := .user :: st) rfl (by
        intro f hf; rw [List.mem_singleton] at hf; subst hf; exact ⟨rfl, fun _ => rfl⟩)
    obtain ⟨l, k1, _, k3, _⟩ := hrun.once ⟨st, rfl⟩ hi2 ho hub hend
    obtain ⟨l', j1, j2⟩ := hrun.onlyCalls ⟨st, rfl⟩ hi2 ho hub
    refine ⟨?_, l', j1, j2⟩
    have ht := pushDown_touch m.g n v
    have hs := ht.same
    have hsame : Same (m.g.pushDown n v)
        ((m.g.pushDown n v).mod n fun x => { x with recomputed := true }) :=
      same_mod rfl rfl rfl rfl rfl rfl rfl
    have hsize : ((m.g.pushDown n v).mod n fun x => { x with recomputed := true }).size =
        m.g.size := hs.size
    have hw : WF ((m.g.pushDown n v).mod n fun x => { x with recomputed := true }) :=
      hsame.wf (hs.wf hi.wf)
    unfold M.get
    rw [k3 n (by rw [(sendDown_moves _ _).same.size, hsize]; exact hlt)]
    unfold Graph.sendDown
    rw [hsize]
    obtain ⟨j, hj⟩ : ∃ j, m.g.size = j + 1 := ⟨m.g.size - 1, by omega⟩
    rw [hj, sendDownN_self j _ n hw, suppressed ((hs.kind n).trans hk)]
    have hcur := pushDown_current m.g n v
    have hf := ht.fresh hi.fresh n
    split
    · unfold Graph.publish
      rw [Graph.mod_self, Graph.mod_self]
      exact hcur
    · rename_i hd
      rw [Graph.mod_self] at hd ⊢
      dsimp only at hd ⊢
      have hc : ((m.g.pushDown n v).node n).chg = false := by
        cases hc : ((m.g.pushDown n v).node n).chg with
        | false => rfl
        | true => exact absurd (hf.1 hc) hd
      rw [hf.2.2 hc, hcur]

/-- With `transactional_tag`: what remains of `set(v)` calls no user code and changes no `get()`; `v` is
remembered. -/
theorem C22_transactional [Inhabited S] {m m1 : M V S} {n : Nat} {v : V}
    {st : List (Frame V)} (hst : m.stack = .user :: .setterRest n v :: .user :: st)
    (hk : (m.g.node n).kind = .setter false) (hret : ustep m .ret = some m1) :
    ∃ m2, istep m1 = some m2 ∧ m2.stack = .user :: st ∧ m2.log = m.log ∧ m2.pending n = v ∧
      ∀ k, m2.get k = m.get k := by
  have hub0 := (ustep_ub hret).1
  have hm1 : m1 = { m with stack := .setterRest n v :: .user :: st } := by
    unfold ustep at hret
    rw [if_neg (by rw [hub0]; decide), hst] at hret
    cases hret; rfl
  refine ⟨{ m with g := m.g.pushDown n v, stack := .user :: st }, ?_, rfl, rfl,
    pushDown_current _ _ _, fun k => ((pushDown_touch m.g n v).last_all k).1⟩
  rw [hm1]
  unfold istep
  dsimp only
  rw [if_neg (by rw [hub0]; decide), hk]

/-- If a commit changes what the source shows, then the setter cursor shows the value of the source
after it, whatever had been set before. -/
theorem C22_follows_commit [Inhabited S] {m m1 : M V S} (h : Reach m) {n p : Nat} {a : Bool}
    (hk : (m.g.node n).kind = .setter a) (hp : (m.g.node n).parents = [p]) (hn : m.Live n)
    {rs : List Nat} (hc : QCall m (.commit rs) m1) (hub : m1.ub = false)
    (hchg : m1.get p ≠ m.get p) : m1.get n = m1.get p := by
  obtain ⟨m', h1, h2, h3⟩ := hc
  have hub0 := (ustep_ub h1).1
  have hi := reach_inv h hub0
  have hi' := step_inv hi (.user _ h1) (ustep_ub h1).2
  obtain ⟨hg', hst'⟩ := commit_step h1
  have ho := once_start (fs := [.roots rs]) hst' (by
    intro f hf; rw [List.mem_singleton] at hf; subst hf; exact ⟨rfl, fun _ => rfl⟩)
  obtain ⟨_, _, _, k3, _⟩ := h2.once (ustep_user h1) hi' ho hub h3
  have hnlt := hi.wf.alive_lt hn
  have hpn := hi.wf.lt n p (by rw [hp]; exact List.mem_cons_self ..)
  have hroots : ∀ r ∈ rs, (m.g.node r).parents = [] := by
    have h4 := h1
    obtain ⟨fs, hst⟩ := ustep_user h1
    unfold ustep at h4
    rw [if_neg (by rw [hub0]; decide), hst] at h4
    dsimp only at h4
    split at h4
    · rename_i hv
      intro r hr
      rw [Bool.and_eq_true] at hv
      exact List.isEmpty_iff.1 (List.all_eq_true.1 hv.2 r hr)
    · cases h4
  have hfol := sendAll_follows rs m.g hi.wf hi.fresh hk hp (reach_recomputed h hub0 n hnlt) hn hroots
  rw [← hg'] at hfol
  have hsize : m'.g.size = m.g.size := by rw [hg', (sendAll_same rs m.g).size]
  have gp : m1.get p = (m'.g.node p).last := k3 p (by omega)
  have gn : m1.get n = (m'.g.node n).last := k3 n (by omega)
  rw [gp, gn]
  rcases hfol with ⟨h4, _⟩ | h4
  · exact absurd (gp.trans h4) hchg
  · exact h4.1

/-- The same if the source is an automatic state and is written to. -/
theorem C22_follows_set [Inhabited S] {m m1 : M V S} (h : Reach m) {n p : Nat} {a : Bool}
    (hk : (m.g.node n).kind = .setter a) (hp : (m.g.node n).parents = [p]) (hn : m.Live n)
    (hkp : (m.g.node p).kind = .state true) {u : V}
    (hc : PCall m (.set p u) m1) (hchg : m1.get p ≠ m.get p) : m1.get n = m1.get p := by
  obtain ⟨m', h1, _⟩ := id hc
  have hub0 := (ustep_ub h1).1
  have hi := reach_inv h hub0
  obtain ⟨fs, hst⟩ := ustep_user h1
  obtain ⟨m2, k1, k2, k3⟩ := auto_call hi hub0 hst u (target_valid h1 rfl) hkp
  obtain rfl : m2 = m1 := k1.det hc
  have hnlt := hi.wf.alive_lt hn
  have hpn := hi.wf.lt n p (by rw [hp]; exact List.mem_cons_self ..)
  have ht := pushDown_touch m.g p u
  have hs := ht.same
  have hfol := sendDownN_follows (m.g.pushDown p u).size (m.g.pushDown p u) p n p a (hs.wf hi.wf)
    (ht.fresh hi.fresh) ((hs.kind n).trans hk) ((hs.parents n).trans hp)
    (by rw [pushDown_recomputed]; exact reach_recomputed h hub0 n hnlt) ((hs.alive n).trans hn)
    (by omega) (by omega)
  show (m2.g.node n).last = (m2.g.node p).last
  rw [k3.quiet.last, k3.quiet.last]
  rcases hfol with ⟨h4, _⟩ | h4
  · exact absurd ((k3.quiet.last p).trans (h4.trans ht.last)) hchg
  · exact h4.1

/-- An automatic state with a setter cursor on it (automatic), a reader of the cursor, and callbacks. -/
def exSetter (auto : Bool) : List (Op Nat Nat) :=
  [.newState true true 1, .newSetter true 0 auto, .newCalc true [1] (on1 (· + 100)) none false 0,
   .attach 1 0, .attach 2 0]

/-- The setter function writes something else to the state. -/
example : ∃ m m1 m2 : M Nat Nat, Reach m ∧
    m.stack = [.user, .setterRest 1 7, .user] ∧ (m.g.node 1).kind = .setter true ∧
    ustep m .ret = some m1 ∧ QRun 1 m1 m2 ∧ m2.stack = [.user] ∧ m2.ub = false ∧
    m.get 1 = 50 ∧ m2.get 1 = 7 ∧ m2.get 0 = 50 ∧ m2.get 2 = 107 ∧
    m2.log = [.setterCall 1 7, .call 0 1 50, .call 1 2 150, .call 0 1 7, .call 1 2 107] := by
  refine ⟨exec [.set 1 7, .set 0 50, .ret, .ret] (exec (exSetter true) boot),
    (ustep (exec [.set 1 7, .set 0 50, .ret, .ret] (exec (exSetter true) boot)) .ret).getD boot,
    prunN 1 200 ((ustep (exec [.set 1 7, .set 0 50, .ret, .ret] (exec (exSetter true) boot))
      .ret).getD boot), ?_, by decide +kernel, ?_, some_getD _ (by decide +kernel),
    (prunN_run 1 200 _).q, by decide +kernel, by decide +kernel, by decide +kernel,
    by decide +kernel, by decide +kernel, by decide +kernel, by decide +kernel⟩
  · exact (exec_runs _ _).reach (exec_reach _)
  · exact isSetter_setter (by decide +kernel)

/-- The call of `set` on a setter, and the function that is called. -/
example : ∃ m m1 : M Nat Nat, Reach m ∧ (m.g.node 1).kind = .setter false ∧
    ustep m (.set 1 7) = some m1 :=
  ⟨exec (exSetter false) boot, (ustep (exec (exSetter false) boot) (.set 1 7)).getD boot,
    exec_reach _, isSetter_setter (by decide +kernel), some_getD _ (by decide +kernel)⟩

/-- With `transactional_tag` the cursor goes on showing what it showed. -/
example : ∃ m m1 : M Nat Nat, Reach m ∧
    m.stack = [.user, .setterRest 1 7, .user] ∧ (m.g.node 1).kind = .setter false ∧
    ustep m .ret = some m1 ∧ m.get 1 = 1 := by
  refine ⟨exec [.set 1 7] (exec (exSetter false) boot),
    (ustep (exec [.set 1 7] (exec (exSetter false) boot)) .ret).getD boot, ?_, by decide +kernel, ?_,
    some_getD _ (by decide +kernel), by decide +kernel⟩
  · exact (exec_runs _ _).reach (exec_reach _)
  · exact isSetter_setter (by decide +kernel)

/-- A setter cursor that was set to 7, on a transactional state to which 9 was written. -/
def exSetterTx : List (Op Nat Nat) :=
  [.newState false true 1, .newSetter true 0 true, .set 1 7, .ret, .set 0 9]

example : ∃ m m1 : M Nat Nat, Reach m ∧ (m.g.node 1).kind = .setter true ∧
    (m.g.node 1).parents = [0] ∧ m.Live 1 ∧ QCall m (.commit [0]) m1 ∧ m1.ub = false ∧
    m.get 1 = 7 ∧ m1.get 0 ≠ m.get 0 ∧ m1.get 1 = 9 :=
  ⟨exec exSetterTx boot, (exec exSetterTx boot).pcall (.commit [0]), exec_reach _,
    isSetter_setter (by decide +kernel), by decide +kernel, by unfold M.Live; decide +kernel,
    (pcall_call (by decide +kernel) (by decide +kernel)).q, by decide +kernel, by decide +kernel,
    by decide +kernel, by decide +kernel⟩

example : ∃ m m1 : M Nat Nat, Reach m ∧ (m.g.node 1).kind = .setter false ∧
    (m.g.node 1).parents = [0] ∧ m.Live 1 ∧ (m.g.node 0).kind = .state true ∧
    PCall m (.set 0 9) m1 ∧ m1.get 0 ≠ m.get 0 ∧ m1.get 1 = 9 :=
  ⟨exec (exSetter false) boot, (exec (exSetter false) boot).pcall (.set 0 9), exec_reach _,
    isSetter_setter (by decide +kernel), by decide +kernel, by unfold M.Live; decide +kernel,
    isState_state (by decide +kernel), pcall_call (by decide +kernel) (by decide +kernel),
    by decide +kernel, by decide +kernel⟩

end Verif.Graph
