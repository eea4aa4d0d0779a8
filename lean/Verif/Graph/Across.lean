import Verif.Graph.Return
import Verif.Graph.Props2

/-!
C17 for callbacks that do anything: the destroyed readers that a notification comes across.
-/

namespace Verif.Graph

variable {V S : Type} [DecidableEq V]

/-- A run in which the `d` outermost frames of the stack, and one more, are there all the time before the end. -/
inductive Inside [Inhabited S] (d : Nat) : M V S → M V S → Prop where
  | refl (m) : Inside d m m
  | step {m m1 m2} : d < m.stack.length → Step m m1 → Inside d m1 m2 → Inside d m m2

theorem Inside.runs [Inhabited S] {d : Nat} {m m' : M V S} (h : Inside d m m') : Runs m m' := by
  induction h with
  | refl => exact .refl _
  | step _ hs _ ih => exact .step hs ih

theorem Runs.notUb [Inhabited S] {m m' : M V S} (h : Runs m m') (hub : m'.ub = false) : m.ub = false := by
  cases h with
  | refl => exact hub
  | step hs _ => exact step_ub hs

theorem across_base [Inhabited S] {m m' : M V S} (hs : Step m m') (hub : m'.ub = false) {f : Frame V}
    {st : List (Frame V)} (hst : m.stack = f :: st) : ∃ fs, m'.stack = fs ++ st := by
  cases hs with
  | lib he =>
    rcases istep_base he hst with h | h
    · rw [hub] at h; cases h
    · exact h
  | user op he =>
    unfold ustep at he
    split at he
    · cases he
    · split at he
      · rename_i st' hst'
        rw [hst] at hst'
        cases hst'
        cases op with
        | ret =>
          simp only at he
          split at he
          · cases he
          · cases he; exact ⟨[], rfl⟩
        | set | update | commit =>
          simp only at he
          split at he
          · cases he; exact ⟨[_, _], by simp only; rw [hst]; rfl⟩
          · cases he
        | newState | newSensor | newConstant | detach => cases he; exact ⟨[_], hst⟩
        | newCalc | newXform | newSetter | attach | kill =>
          simp only at he
          split at he
          · cases he; exact ⟨[_], hst⟩
          · cases he
      · cases he

omit [DecidableEq V] in
theorem collect_children (g : Graph V S) (n : Nat) (f : Node V S → Node V S) (hf : ∀ x, (f x).children = x.children)
    (ha : ∀ x, (f x).alive = x.alive) :
    ∀ c ∈ (((g.collect n).mod n f).node n).children, (((g.collect n).mod n f).node c).alive = true := by
  intro c hc
  simp only [Graph.mod_node, if_true, hf, Graph.collect] at hc
  rw [List.mem_filter] at hc
  simp only [Graph.mod_node, Graph.collect]
  split
  · rename_i h
    subst h
    rw [ha]
    simpa using hc.2
  · exact hc.2

/-- C17: if the outermost notification of `n`, in its loop over the derived readers, comes across one that is destroyed, then
at its end all the links of `n` are to readers that exist, and there are links to all of these; whatever the callbacks do. -/
theorem C17_across [Inhabited S] {m m' : M V S} (hr : Reach m) {n i size : Nat} {prev garbage : Bool}
    {st : List (Frame V)} (hst : m.stack = .kids n i size prev garbage :: st) (houter : active n st = false)
    (hi : i < size) {c : Nat} (hc : (m.g.node n).children[i]? = some c) (hd : ¬ m.Live c)
    (hrun : Inside st.length m m') (hend : m'.stack = st) (hub : m'.ub = false) :
    (∀ c, c ∈ (m'.g.node n).children → m'.Live c) ∧
    ∀ c, m'.Live c → n ∈ (m'.g.node c).parents → c ∈ (m'.g.node n).children := by
  have hinv : Inv m := reach_inv hr (hrun.runs.notUb hub)
  have hprev : prev = false := by
    have := hinv.stack.guards
    rw [hst] at this
    simp only [Guards] at this
    rw [this.1]; exact houter
  subst hprev
  have hwf := (reach_inv (hrun.runs.reach hr) hub).wf
  refine ⟨?_, fun c hl hp => hwf.linked c hl n hp⟩
  suffices H : ∀ (m1 : M V S), Inside st.length m1 m' → ∀ pre j, m1.stack = pre ++ .kids n j size false true :: st →
      ∀ c, c ∈ (m'.g.node n).children → m'.Live c by
    cases hrun with
    | refl => rw [hst] at hend; exact absurd (congrArg List.length hend) (by simp)
    | step _ hs h2 =>
      refine H _ h2 [] (i + 1) ?_
      have hu : m.ub = false := step_ub hs
      cases hs with
      | lib he =>
        unfold istep at he
        rw [hu, if_neg (by simp), hst] at he
        simp only [hi, if_true, hc] at he
        rw [if_neg (show ¬ (m.g.node c).alive = true from hd)] at he
        cases he
        rfl
      | user op he =>
        unfold ustep at he
        rw [hu, if_neg (by simp), hst] at he
        cases he
  intro m1 hw
  induction hw with
  | refl m1 =>
    intro pre j hs
    rw [hs] at hend
    have := congrArg List.length hend
    simp at this
    omega
  | step hlen hs h2 ih =>
    rename_i m1 m2 m3
    intro pre j hst1
    have hu2 := h2.runs.notUb hub
    cases pre with
    | cons f pre =>
      obtain ⟨fs, h⟩ := across_base hs hu2 (st := pre ++ .kids n j size false true :: st) hst1
      exact ih hrun hend hub hwf (fs ++ pre) j (by rw [h, List.append_assoc])
    | nil =>
      simp only [List.nil_append] at hst1
      have hu : m1.ub = false := step_ub hs
      cases hs with
      | user op he =>
        unfold ustep at he
        rw [hu, if_neg (by simp), hst1] at he
        cases he
      | lib he =>
        unfold istep at he
        rw [hu, if_neg (by simp), hst1] at he
        simp only at he
        split at he
        · split at he
          · cases he; cases hu2
          · split at he
            · cases he; exact ih hrun hend hub hwf [_] (j + 1) rfl
            · cases he; exact ih hrun hend hub hwf [] (j + 1) rfl
        · cases he
          cases h2 with
          | refl =>
            exact collect_children m1.g n (fun x => { x with notifying := false }) (fun _ => rfl) (fun _ => rfl)
          | step hl _ _ => exact absurd hl (by simp)

/-- C17: FALSE of notifications inside of a notification of the same source: the links to destroyed readers that they come
across may stay. -/
theorem C17_nested_false : ∃ m m' : M Nat Nat, Reach m ∧ m.stack.head? = some (.kids 0 0 2 true false) ∧
    (m.g.node 0).children[0]? = some 1 ∧ ¬ m.Live 1 ∧ Runs m m' ∧ m'.AtRest ∧ m'.ub = false ∧
    (m'.g.node 0).children = [1, 2] := by
  let a := exec [.newState false true 1, .newCalc true [0] (on1 (· + 1)) none false 0,
    .newCalc true [0] (on1 (· + 2)) none false 0, .attach 2 0, .set 0 5, .commit [0], .kill 1, .set 0 6] boot
  have hs : ustep a (.commit [0]) = some ((ustep a (.commit [0])).getD a) := some_getD a (by decide +kernel)
  have hr := libN_run 3 ((ustep a (.commit [0])).getD a)
  refine ⟨libN 3 ((ustep a (.commit [0])).getD a), exec [.ret, .ret] (libN 20 (libN 3 ((ustep a (.commit [0])).getD a))),
    hr.runs.reach (.step (exec_reach _) (.user _ hs)), by decide +kernel, by decide +kernel, ?_, ?_,
    ⟨by decide +kernel, by decide +kernel⟩, by decide +kernel, by decide +kernel⟩
  · unfold M.Live; decide +kernel
  · exact (libN_run 20 _).runs.trans (exec_runs _ _)

/-- A callback of the first reader destroys the second one, so that the loop comes across it; the third one writes again. -/
example : ∃ m m' : M Nat Nat, Reach m ∧ m.stack = [.kids 0 1 3 false false, .roots [], .user] ∧
    active 0 [Frame.roots (V := Nat) [], .user] = false ∧
    (m.g.node 0).children[1]? = some 2 ∧ ¬ m.Live 2 ∧ Runs m m' ∧ m'.AtRest ∧ (m'.g.node 0).children = [1, 3] := by
  let a := exec [.newState false true 1, .newCalc true [0] (on1 (· + 1)) none false 0,
    .newCalc true [0] (on1 (· + 2)) none false 0, .newCalc true [0] (on1 (· + 3)) none false 0,
    .attach 1 0, .attach 3 0, .set 0 5, .commit [0], .kill 2] boot
  have hs : ustep a .ret = some ((ustep a .ret).getD a) := some_getD a (by decide +kernel)
  have hr := libN_run 2 ((ustep a .ret).getD a)
  refine ⟨libN 2 ((ustep a .ret).getD a), exec [.set 0 6, .commit [0], .ret, .ret, .ret] (libN 20 (libN 2 ((ustep a .ret).getD a))),
    hr.runs.reach (.step (exec_reach _) (.user _ hs)), by decide +kernel, by decide +kernel, by decide +kernel, ?_, ?_,
    ⟨by decide +kernel, by decide +kernel⟩, by decide +kernel⟩
  · unfold M.Live; decide +kernel
  · exact (libN_run 20 _).runs.trans (exec_runs _ _)

end Verif.Graph
