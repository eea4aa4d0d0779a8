import Verif.Http.Live
import Verif.Store.Props6

/-!
Property C104: the debugger in the browser while the program runs.

`Live.Reach w c blank s` says that `s` can be reached when the store `c` runs in its thread, any threads
dispatch, and the thread of the server answers requests, all interleaved.
-/

namespace Verif.Http

open Verif.Debugger (Model Action)
open Verif.Store (Cfg Par POp Job SOp St SEv dispatches reductions shows lastShown fold)

variable {A M : Type}

/-! ### Specification -/

/-- The requests that are commands, and the action each of them stands for. -/
def Commands (q : Req) (a : Action A) : Prop :=
  (∃ t, (t, a) ∈ commands ∧ q = ⟨.post, t⟩) ∨
  ∃ d n, Number d n ∧ n < 2 ^ 64 ∧ q = ⟨.post, "/api/goto/".toList ++ d⟩ ∧ a = .goto_ n

/-- `as` are the commands among the requests `qs`, in order. -/
inductive CommandsOf : List Req → List (Action A) → Prop where
  | nil : CommandsOf [] []
  | command {qs as q a} : CommandsOf qs as → Commands q a → CommandsOf (qs ++ [q]) (as ++ [a])
  | other {qs as q} : CommandsOf qs as → (∀ a : Action A, ¬ Commands q a) → CommandsOf (qs ++ [q]) as

/-- The models `ms` never go back: first `blank`, and then models of the store after more and more of the actions
`ds`. -/
def Forward (c : Cfg (Action A) (Model A M)) (blank : Model A M) (ds : List (Action A)) (ms : List (Model A M)) : Prop :=
  ∃ (j : Nat) (ks : List Nat), ms = List.replicate j blank ++ ks.map (fun k => fold c (ds.take k)) ∧
    ks.Pairwise (· ≤ ·) ∧ ∀ k ∈ ks, k ≤ ds.length

/-! ### What a request does -/

theorem ask_dispatched (w : Site) (q : Req) (m : Model A M) :
    (∃ a, Commands q a ∧ (w.ask q m).1.dispatched = [a]) ∨
    ((∀ a : Action A, ¬ Commands q a) ∧ (w.ask q m).1.dispatched = []) := by
  unfold Site.ask
  by_cases hg : ∃ d n, Number d n ∧ q = ⟨.post, "/api/goto/".toList ++ d⟩
  · obtain ⟨d, n, hd, rfl⟩ := hg
    by_cases hn : n < 2 ^ 64
    · left
      refine ⟨.goto_ n, .inr ⟨d, n, hd, hn, rfl, rfl⟩, ?_⟩
      rw [(C77_goto w.resources w.files w.mime ⟨m, []⟩ hd).1 hn]
      rfl
    · right
      obtain ⟨what, h⟩ := (C77_goto w.resources w.files w.mime (⟨m, []⟩ : Srv A M) hd).2 (by omega)
      rw [h]
      refine ⟨?_, rfl⟩
      rintro a (⟨t, ht, e⟩ | ⟨d', n', hd', hn', e, _⟩)
      · have e : "/api/goto/".toList ++ d = t := (Req.mk.inj e).2
        have e4 := congrArg (List.take 9) e
        rw [List.take_append_of_le_length (by decide)] at e4
        simp only [commands, List.mem_cons, List.not_mem_nil, or_false, Prod.mk.injEq] at ht
        rcases ht with ⟨rfl, _⟩ | ⟨rfl, _⟩ | ⟨rfl, _⟩ | ⟨rfl, _⟩ <;> revert e4 <;> decide +kernel
      · have e : "/api/goto/".toList ++ d = "/api/goto/".toList ++ d' := (Req.mk.inj e).2
        have e := List.append_cancel_left e
        subst e
        have := hd.value.symm.trans hd'.value
        omega
  · by_cases hc : ∃ t a, (t, a) ∈ commands (A := A) ∧ q = ⟨.post, t⟩
    · obtain ⟨t, a, ht, rfl⟩ := hc
      left
      refine ⟨a, .inl ⟨t, ht, rfl⟩, ?_⟩
      rw [C77_command w.resources w.files w.mime ⟨m, []⟩ ht]
      rfl
    · right
      constructor
      · rintro a (⟨t, ht, e⟩ | ⟨d, n, hd, _, e, _⟩)
        · exact hc ⟨t, a, ht, e⟩
        · exact hg ⟨d, n, hd, e⟩
      · rw [((C77_others w.resources w.files w.mime (⟨m, []⟩ : Srv A M) q).2
          (fun d n hd e => hg ⟨d, n, hd, e⟩) (fun t a ht e => hc ⟨t, a, ht, e⟩)).1]

theorem Commands.unique {q : Req} {a b : Action A} (ha : Commands q a) (hb : Commands q b) : a = b := by
  have h := ask_dispatched (M := Unit) ⟨[], fun _ => none, fun _ => ""⟩ q (Model.start () : Model A Unit)
  have key : ∀ a : Action A, Commands q a →
      ((⟨[], fun _ => none, fun _ => ""⟩ : Site).ask q (Model.start () : Model A Unit)).1.dispatched = [a] := by
    rintro a (⟨t, ht, rfl⟩ | ⟨d, n, hd, hn, rfl, rfl⟩)
    · unfold Site.ask
      rw [C77_command _ _ _ _ ht]; rfl
    · unfold Site.ask
      rw [(C77_goto _ _ _ _ hd).1 hn]; rfl
  have := (key a ha).symm.trans (key b hb)
  simpa using this

/-- What dispatching changes. -/
structure Posted (as : List (Action A)) (p p' : Par (Action A) (Model A M)) : Prop where
  jobs : p'.jobs = p.jobs
  last : p'.st.last = p.st.last
  log : ∃ l, p'.st.log = p.st.log ++ l ∧ dispatches l = as ∧ reductions l = [] ∧ shows l = [] ∧
    ∀ d e, SEv.lost d e ∉ l

theorem dispatches_append (l r : List (SEv A M)) : dispatches (l ++ r) = dispatches l ++ dispatches r := by
  induction l with
  | nil => rfl
  | cons e l ih => cases e <;> first | exact ih | exact congrArg (_ :: ·) ih

theorem post_posted {c : Cfg (Action A) (Model A M)} {as : List (Action A)} {p p' : Par (Action A) (Model A M)}
    (h : post c as p = some p') : Posted as p p' := by
  induction as generalizing p with
  | nil => cases h; exact ⟨rfl, rfl, [], by simp, rfl, rfl, rfl, nofun⟩
  | cons a as ih =>
    simp only [post, Option.bind_eq_some_iff] at h
    obtain ⟨p1, h1, h2⟩ := h
    obtain ⟨j2, l2, l, e1, e2, e3, e4, e5⟩ := ih h2
    simp only [Par.step, SOp.isUser, if_true, Option.map_eq_some_iff] at h1
    obtain ⟨t, ht, rfl⟩ := h1
    simp only [Store.step, Store.St.dispatch, Option.map_eq_some_iff] at ht
    obtain ⟨s1, hs1, rfl⟩ := ht
    have k := Store.fstep_toks hs1
    refine ⟨j2, l2.trans k.last, .dispatched p.st.sent.length a :: l, ?_, congrArg (a :: ·) e2, e3, e4, ?_⟩
    · rw [e1]
      show (s1.log ++ [_]) ++ l = _
      rw [k.log]
      simp
    · intro d e hm
      cases hm with
      | tail _ hm => exact e5 d e hm

theorem post_some (c : Cfg (Action A) (Model A M)) (as : List (Action A)) (p : Par (Action A) (Model A M))
    (hu : p.st.fu.ub = false) : ∃ p', post c as p = some p' := by
  induction as generalizing p with
  | nil => exact ⟨p, rfl⟩
  | cons a as ih =>
    have : ∃ p1, Par.step c 1 p (.user (.dispatch a)) = some p1 ∧ p1.st.fu.ub = false := by
      cases hf : c.hasF <;>
      · simp only [Par.step, SOp.isUser, if_true, Store.step, Store.St.dispatch, Store.St.fstep, Future.step, hu, hf,
          Bool.false_eq_true, if_false, Option.map_some]
        exact ⟨_, rfl, rfl⟩
    obtain ⟨p1, h1, h2⟩ := this
    obtain ⟨p', h3⟩ := ih p1 h2
    exact ⟨p', by simp only [post, h1, Option.bind_some, h3]⟩

/-! ### C104 -/

/-- C104: with a server, the store goes through states that it can go through without one when any threads
dispatch.  So all of C94 holds, in particular there are no data races on the store. -/
theorem C104_store {w : Site} {c : Cfg (Action A) (Model A M)} {blank : Model A M} {s : Live A M}
    (r : Live.Reach w c blank s) : Par.Reach c 1 s.par ∧ (s.par.peeks = 0 → ¬ s.par.racy c) :=
  ⟨reach_par r, fun h => Store.C94_no_race (reach_par r) h⟩

/-- C104: a request can be answered at any moment, also in the middle of a task of the store.  A command
dispatches its action; other requests leave the store as it is.  Neither of them touches what the store does at the
moment, or the model. -/
theorem C104_request {w : Site} {c : Cfg (Action A) (Model A M)} {s : Live A M} (hu : s.par.st.fu.ub = false) (q : Req) :
    ∃ s', Live.Step w c s s' ∧ s'.answers = s.answers ++ [(q, (w.ask q s.seen).2)] ∧
      s'.par.jobs = s.par.jobs ∧ s'.par.st.get = s.par.st.get ∧ s'.seen = s.seen ∧
      (∀ a, Commands q a → dispatches s'.par.st.log = dispatches s.par.st.log ++ [a]) ∧
      ((∀ a : Action A, ¬ Commands q a) → s'.par = s.par) := by
  obtain ⟨p', h⟩ := post_some c (w.ask q s.seen).1.dispatched s.par hu
  have k := post_posted h
  refine ⟨_, .request q h, rfl, k.jobs, k.last, rfl, ?_, ?_⟩
  · intro a ha
    obtain ⟨l, e1, e2, _⟩ := k.log
    rcases ask_dispatched w q s.seen with ⟨b, hb, e⟩ | ⟨hn, _⟩
    · rw [e1, dispatches_append, e2, e, hb.unique ha]
    · exact absurd ha (hn a)
  · intro hn
    rcases ask_dispatched w q s.seen with ⟨b, hb, _⟩ | ⟨_, e⟩
    · exact absurd hb (hn b)
    · rw [e] at h
      cases h
      rfl

/-- C104: the commands among the requests are dispatched to the store, once each and in order, between the actions
of the program. -/
theorem C104_commands {w : Site} {c : Cfg (Action A) (Model A M)} {blank : Model A M} {s : Live A M}
    (r : Live.Reach w c blank s) :
    ∃ as : List (Action A), CommandsOf (s.answers.map (·.1)) as ∧ as.Sublist (dispatches s.par.st.log) := by
  have grow : ∀ {p p' : Par (Action A) (Model A M)} {l : List (SEv (Action A) (Model A M))},
      p'.st.log = p.st.log ++ l → (dispatches p.st.log).Sublist (dispatches p'.st.log) := by
    intro p p' l h
    rw [h, dispatches_append]
    exact List.sublist_append_left _ _
  induction r with
  | start => exact ⟨[], .nil, List.nil_sublist _⟩
  | @step s s' r hs ih =>
    obtain ⟨as, h1, h2⟩ := ih
    have hl := (reach_par r).jobs
    cases hs with
    | store op h =>
      obtain ⟨l, e, _⟩ := par_log hl h
      exact ⟨as, h1, h2.trans (grow e)⟩
    | late n h =>
      obtain ⟨l, e, _⟩ := par_log hl h
      exact ⟨as, h1, h2.trans (grow e)⟩
    | @request q p' h =>
      obtain ⟨l, e1, e2, _⟩ := (post_posted h).log
      simp only [List.map_append, List.map_cons, List.map_nil, e1, dispatches_append, e2]
      rcases ask_dispatched w q s.seen with ⟨b, hb, e⟩ | ⟨hn, e⟩ <;> rw [e]
      · exact ⟨as ++ [b], .command h1 hb, h2.append (List.Sublist.refl _)⟩
      · exact ⟨as, .other h1 hn, by rw [List.append_nil]; exact h2⟩

theorem take_prefix {B : Type} {l l' : List B} (h : l <+: l') {k : Nat} (hk : k ≤ l.length) :
    l'.take k = l.take k := by
  obtain ⟨r, rfl⟩ := h
  exact List.take_append_of_le_length hk

/-- C104: each answer is the one that C77 describes, for a model that the store has had, and later answers are
never for earlier models, whatever is dispatched in the meantime by commands and the program. -/
theorem C104_answers {w : Site} {c : Cfg (Action A) (Model A M)} (hc : c.sound) {blank : Model A M} {s : Live A M}
    (r : Live.Reach w c blank s) :
    ∃ ms : List (Model A M), Forward c blank (dispatches s.par.st.log) ms ∧
      s.answers.map (·.2) = List.zipWith (fun q m => (w.ask q m).2) (s.answers.map (·.1)) ms ∧
      ms.length = s.answers.length := by
  -- with reductions, and with what is shown next
  suffices h : ∃ (j : Nat) (ks : List Nat) (o : Option Nat),
      s.answers.map (·.2) = List.zipWith (fun q m => (w.ask q m).2) (s.answers.map (·.1))
        (List.replicate j blank ++ ks.map (fun k => fold c ((reductions s.par.st.log).take k))) ∧
      j + ks.length = s.answers.length ∧ ks.Pairwise (· ≤ ·) ∧
      (o = none → s.seen = blank ∧ ks = []) ∧
      (∀ k, o = some k → s.seen = fold c ((reductions s.par.st.log).take k) ∧ (∀ i ∈ ks, i ≤ k) ∧
        k ≤ (reductions s.par.st.log).length) by
    obtain ⟨j, ks, o, h1, h2, h3, h4, h5⟩ := h
    have hp := (Store.C94_order hc (reach_par r)).1
    have hb : ∀ k ∈ ks, k ≤ (reductions s.par.st.log).length := by
      intro k hk
      cases o with
      | none => rw [(h4 rfl).2] at hk; cases hk
      | some k' => exact Nat.le_trans ((h5 k' rfl).2.1 k hk) (h5 k' rfl).2.2
    refine ⟨_, ⟨j, ks, rfl, h3, fun k hk => Nat.le_trans (hb k hk) hp.length_le⟩, ?_, by simpa using h2⟩
    rw [h1]
    congr 2
    apply List.map_congr_left
    intro k hk
    rw [take_prefix hp (hb k hk)]
  -- later, with a longer log
  have later : ∀ {s : Live A M} {p' : Par (Action A) (Model A M)} {l : List (SEv (Action A) (Model A M))},
      p'.st.log = s.par.st.log ++ l → ∀ {j : Nat} {ks : List Nat} {o : Option Nat},
      (s.answers.map (·.2) = List.zipWith (fun q m => (w.ask q m).2) (s.answers.map (·.1))
        (List.replicate j blank ++ ks.map (fun k => fold c ((reductions s.par.st.log).take k))) ∧
      j + ks.length = s.answers.length ∧ ks.Pairwise (· ≤ ·) ∧
      (o = none → s.seen = blank ∧ ks = []) ∧
      (∀ k, o = some k → s.seen = fold c ((reductions s.par.st.log).take k) ∧ (∀ i ∈ ks, i ≤ k) ∧
        k ≤ (reductions s.par.st.log).length)) →
      (s.answers.map (·.2) = List.zipWith (fun q m => (w.ask q m).2) (s.answers.map (·.1))
        (List.replicate j blank ++ ks.map (fun k => fold c ((reductions p'.st.log).take k))) ∧
      j + ks.length = s.answers.length ∧ ks.Pairwise (· ≤ ·) ∧
      (o = none → s.seen = blank ∧ ks = []) ∧
      (∀ k, o = some k → s.seen = fold c ((reductions p'.st.log).take k) ∧ (∀ i ∈ ks, i ≤ k) ∧
        k ≤ (reductions p'.st.log).length)) := by
    intro s p' l hl j ks o ⟨h1, h2, h3, h4, h5⟩
    have hp : reductions s.par.st.log <+: reductions p'.st.log := by
      rw [hl, Store.reductions_append]; exact List.prefix_append _ _
    refine ⟨?_, h2, h3, h4, fun k hk => ?_⟩
    · rw [h1]
      congr 2
      apply List.map_congr_left
      intro k hk
      have hb : k ≤ (reductions s.par.st.log).length := by
        cases o with
        | none => rw [(h4 rfl).2] at hk; cases hk
        | some k' => exact Nat.le_trans ((h5 k' rfl).2.1 k hk) (h5 k' rfl).2.2
      rw [take_prefix hp hb]
    · obtain ⟨e1, e2, e3⟩ := h5 k hk
      exact ⟨by rw [e1, take_prefix hp e3], e2, Nat.le_trans e3 hp.length_le⟩
  -- when the model is assigned
  have assigned : ∀ {s : Live A M} {p' : Par (Action A) (Model A M)} {l : List (SEv (Action A) (Model A M))},
      Live.Reach w c blank s → Watching s.par → p'.st.log = s.par.st.log ++ l → ∀ {j : Nat} {ks : List Nat} {o : Option Nat},
      (s.answers.map (·.2) = List.zipWith (fun q m => (w.ask q m).2) (s.answers.map (·.1))
        (List.replicate j blank ++ ks.map (fun k => fold c ((reductions s.par.st.log).take k))) ∧
      j + ks.length = s.answers.length ∧ ks.Pairwise (· ≤ ·) ∧
      (o = none → s.seen = blank ∧ ks = []) ∧
      (∀ k, o = some k → s.seen = fold c ((reductions s.par.st.log).take k) ∧ (∀ i ∈ ks, i ≤ k) ∧
        k ≤ (reductions s.par.st.log).length)) →
      ∃ k', (s.answers.map (·.2) = List.zipWith (fun q m => (w.ask q m).2) (s.answers.map (·.1))
        (List.replicate j blank ++ ks.map (fun k => fold c ((reductions p'.st.log).take k))) ∧
      j + ks.length = s.answers.length ∧ ks.Pairwise (· ≤ ·) ∧
      (some k' = none → s.par.st.last = blank ∧ ks = []) ∧
      (∀ k, some k' = some k → s.par.st.last = fold c ((reductions p'.st.log).take k) ∧ (∀ i ∈ ks, i ≤ k) ∧
        k ≤ (reductions p'.st.log).length)) := by
    intro s p' l r hw hl j ks o H
    have hp : reductions s.par.st.log <+: reductions p'.st.log := by
      rw [hl, Store.reductions_append]; exact List.prefix_append _ _
    obtain ⟨h1, h2, h3, h4, h5⟩ := later hl H
    obtain ⟨_, _, _, g4, g5⟩ := H
    refine ⟨(reductions s.par.st.log).length, h1, h2, h3, nofun, fun k hk => ?_⟩
    cases hk
    refine ⟨?_, ?_, hp.length_le⟩
    · rw [(watching_last hc (reach_par r) hw blank).2, take_prefix hp (Nat.le_refl _), List.take_length]
    · intro i hi
      cases o with
      | none => rw [(g4 rfl).2] at hi; cases hi
      | some k' => exact Nat.le_trans ((g5 k' rfl).2.1 i hi) (g5 k' rfl).2.2
  induction r with
  | start => exact ⟨0, [], none, rfl, rfl, .nil, fun _ => ⟨rfl, rfl⟩, nofun⟩
  | @step s s' r hs ih =>
    obtain ⟨j, ks, o, H⟩ := ih
    have hj := (reach_par r).jobs
    cases hs with
    | @store op p' h =>
      obtain ⟨l, e, _, _, _, hu⟩ := par_log hj h
      by_cases hup : updates s.par op = true
      · obtain ⟨k', H'⟩ := assigned r (hu hup).1 e H
        exact ⟨j, ks, some k', by simpa only [hup, if_true] using H'⟩
      · have hup : updates s.par op = false := by simpa using hup
        refine ⟨j, ks, o, ?_⟩
        simp only [hup, Bool.false_eq_true, if_false]
        exact later e H
    | @late n p' h =>
      obtain ⟨l, e, _⟩ := par_log hj h
      have hw : Watching s.par := by
        have hlen := hj
        simp only [Par.step] at h
        split at h
        · cases h
        · rename_i x hx
          simp only [Option.map_eq_some_iff] at h
          obtain ⟨t', hg, _⟩ := h
          have hjs : s.par.jobs = [x] := by
            cases hjs : s.par.jobs with
            | nil => rw [hjs] at hx; simp at hx
            | cons y js =>
              rw [hjs] at hx hlen
              cases js with
              | cons _ _ => simp at hlen
              | nil => cases n with
                | zero => simpa using hx
                | succ n => simp at hx
          unfold Watching
          rw [hjs]
          unfold Job.raise at hg
          split at hg
          · exact ⟨_, rfl⟩
          · exact ⟨_, rfl⟩
          · cases hg
      obtain ⟨k', H'⟩ := assigned r hw e H
      exact ⟨j, ks, some k', H'⟩
    | @request q p' h =>
      obtain ⟨l, e, _⟩ := (post_posted h).log
      obtain ⟨h1, h2, h3, h4, h5⟩ := later e H
      have hz : ∀ (j : Nat) (ms : List (Model A M)), j + ms.length = s.answers.length → ∀ m,
          s.answers.map (·.2) = List.zipWith (fun q m => (w.ask q m).2) (s.answers.map (·.1))
            (List.replicate j blank ++ ms) →
          (s.answers ++ [(q, (w.ask q m).2)]).map (·.2) =
            List.zipWith (fun q m => (w.ask q m).2) ((s.answers ++ [(q, (w.ask q m).2)]).map (·.1))
              ((List.replicate j blank ++ ms) ++ [m]) := by
        intro j ms hl m he
        rw [List.map_append, List.map_append, List.zipWith_append (by simp; omega), he]
        rfl
      cases o with
      | none =>
        obtain ⟨e1, rfl⟩ := h4 rfl
        refine ⟨j + 1, [], none, ?_, by simpa using h2, .nil, h4, h5⟩
        have := hz j [] (by simpa using h2) s.seen (by simpa using h1)
        dsimp only
        rw [this, e1]
        congr 1
        simp [List.replicate_succ']
      | some k =>
        obtain ⟨e1, e2, e3⟩ := h5 k rfl
        refine ⟨j, ks ++ [k], some k, ?_, by simp; omega, ?_, nofun, fun k' hk' => ?_⟩
        · have := hz j (ks.map (fun k => fold c ((reductions p'.st.log).take k))) (by simpa using h2) s.seen h1
          dsimp only
          rw [this]
          congr 1
          simp [e1]
        · rw [List.pairwise_append]
          refine ⟨h3, List.pairwise_singleton _ _, fun a ha b hb => ?_⟩
          cases List.mem_singleton.1 hb
          exact e2 a ha
        · cases hk'
          refine ⟨e1, fun i hi => ?_, e3⟩
          rcases List.mem_append.1 hi with hi | hi
          · exact e2 i hi
          · cases List.mem_singleton.1 hi
            exact Nat.le_refl _

/-- What the server shows, if no watcher has thrown: what the watchers were called with last. -/
theorem seen_last {w : Site} {c : Cfg (Action A) (Model A M)} (hc : c.sound) {blank : Model A M} {s : Live A M}
    (r : Live.Reach w c blank s) (hl : ∀ d e, SEv.lost d e ∉ s.par.st.log) :
    Watching s.par ∨ s.seen = lastShown blank s.par.st.log := by
  induction r with
  | start => exact .inr rfl
  | @step s s' r hs ih =>
    have hj := (reach_par r).jobs
    cases hs with
    | @store op p' h =>
      obtain ⟨l, e, h1, h2, h3, h4⟩ := par_log hj h
      have hl' : ∀ d e, SEv.lost d e ∉ s.par.st.log := fun d x hm =>
        hl d x (by dsimp only; rw [e]; exact List.mem_append_left _ hm)
      by_cases hw' : Watching p'
      · exact .inl hw'
      · right
        have hs : shows l = [] := h1.resolve_right hw'
        dsimp only
        rw [e, Store.lastShown_append, shows_nil_last hs]
        by_cases hu : updates s.par op = true
        · rw [if_pos hu]
          exact (watching_last hc (reach_par r) (h4 hu).1 blank).1.symm
        · rw [if_neg hu]
          rcases ih hl' with hw | hw
          · rcases h2 hw with h | h | ⟨n, h⟩
            · exact absurd h hw'
            · exact absurd h hu
            · obtain ⟨d, x, hm⟩ := h3 n h
              exact absurd (show SEv.lost d x ∈ p'.st.log by rw [e]; exact List.mem_append_right _ hm) (hl d x)
          · exact hw
    | @late n p' h =>
      obtain ⟨l, e, _, _, h3, _⟩ := par_log hj h
      obtain ⟨d, x, hm⟩ := h3 n rfl
      exact absurd (show SEv.lost d x ∈ p'.st.log by rw [e]; exact List.mem_append_right _ hm) (hl d x)
    | @request q p' h =>
      have k := post_posted h
      obtain ⟨l, e, _, _, e4, _⟩ := k.log
      have hl' : ∀ d e, SEv.lost d e ∉ s.par.st.log := fun d x hm =>
        hl d x (by dsimp only; rw [e]; exact List.mem_append_left _ hm)
      rcases ih hl' with ⟨it, hw⟩ | hw
      · exact .inl ⟨it, by rw [← hw]; exact k.jobs⟩
      · right
        dsimp only
        rw [e, Store.lastShown_append, shows_nil_last e4]
        exact hw

/-- C104: when nothing is left to do, and no watcher has thrown, the server shows the model of the store, which is
the fold over all actions of the program and all commands; or the store has never changed, and the server shows
the model made from nothing (C77_initial_false). -/
theorem C104_final {w : Site} {c : Cfg (Action A) (Model A M)} (hc : c.sound) (ht : c.trans = false) {blank : Model A M}
    {s : Live A M} (r : Live.Reach w c blank s) (hj : s.par.jobs = []) (hi : s.par.st.idle)
    (hl : ∀ d e, SEv.lost d e ∉ s.par.st.log) :
    s.par.st.get = fold c (dispatches s.par.st.log) ∧
    (s.seen = s.par.st.get ∨ (shows s.par.st.log = [] ∧ s.seen = blank ∧ s.par.st.get = c.init)) := by
  have hr := reach_par r
  refine ⟨Store.C94_fold hc ht hr hj hi, ?_⟩
  have hs : s.seen = lastShown blank s.par.st.log := by
    rcases seen_last hc r hl with ⟨it, hw⟩ | h
    · rw [hj] at hw; cases hw
    · exact h
  obtain ⟨s0, hr0, h⟩ := Store.C94_serial hc hr hj
  have hg : s.par.st.get = lastShown c.init s.par.st.log := by
    have := (hr0.core hc).seen
    rw [← Store.lastShown_filter, h.log.1, Store.lastShown_filter] at this
    rw [this]
    exact h.last.symm
  have last : ∀ (l : List (SEv (Action A) (Model A M))) (v u : Model A M), shows l ≠ [] → lastShown v l = lastShown u l := by
    intro l
    induction l with
    | nil => intro v u h; exact absurd rfl h
    | cons e l ih => intro v u h; cases e <;> first | exact ih v u h | rfl
  cases hsh : shows s.par.st.log with
  | nil => exact .inr ⟨rfl, by rw [hs, shows_nil_last hsh], by rw [hg, shows_nil_last hsh]⟩
  | cons v l => exact .inl (by rw [hs, hg]; exact last _ _ _ (by rw [hsh]; simp))

/-! ### Examples -/

inductive LOp where
  | store (op : POp (Action Nat))
  | request (q : Req)

def exSite : Site := ⟨[], fun _ => none, fun _ => ""⟩

def exBlank : Model Nat Nat := Model.start 0

def Live.next (c : Cfg (Action Nat) (Model Nat Nat)) (s : Live Nat Nat) : LOp → Option (Live Nat Nat)
  | .store op => (Par.step c 1 s.par op).map fun p' =>
    ⟨p', if updates s.par op then s.par.st.last else s.seen, s.answers⟩
  | .request q => (post c (exSite.ask q s.seen).1.dispatched s.par).map fun p' =>
    ⟨p', s.seen, s.answers ++ [(q, (exSite.ask q s.seen).2)]⟩

def Live.exec (c : Cfg (Action Nat) (Model Nat Nat)) : List LOp → Live Nat Nat → Option (Live Nat Nat)
  | [], s => some s
  | op :: ops, s => (s.next c op).bind (Live.exec c ops)

theorem exec_reach {c : Cfg (Action Nat) (Model Nat Nat)} {ops : List LOp} {s s' : Live Nat Nat}
    (r : Live.Reach exSite c exBlank s) (h : Live.exec c ops s = some s') : Live.Reach exSite c exBlank s' := by
  induction ops generalizing s with
  | nil => cases h; exact r
  | cons op ops ih =>
    simp only [Live.exec, Option.bind_eq_some_iff] at h
    obtain ⟨s1, h1, h2⟩ := h
    refine ih (r.step ?_) h2
    cases op with
    | store op =>
      simp only [Live.next, Option.map_eq_some_iff] at h1
      obtain ⟨p', h3, rfl⟩ := h1
      exact .store op h3
    | request q =>
      simp only [Live.next, Option.map_eq_some_iff] at h1
      obtain ⟨p', h3, rfl⟩ := h1
      exact .request q h3

def exLive (ops : List LOp) : Live Nat Nat :=
  (Live.exec (Store.exDebug false false) ops ⟨Par.start (Store.exDebug false false), exBlank, []⟩).getD
    ⟨Par.start (Store.exDebug false false), exBlank, []⟩

theorem exLive_reach {ops : List LOp}
    (h : (Live.exec (Store.exDebug false false) ops ⟨Par.start (Store.exDebug false false), exBlank, []⟩).isSome = true) :
    Live.Reach exSite (Store.exDebug false false) exBlank (exLive ops) := by
  refine exec_reach (ops := ops) .start ?_
  unfold exLive
  cases h' : Live.exec (Store.exDebug false false) ops ⟨Par.start (Store.exDebug false false), exBlank, []⟩ with
  | none => rw [h'] at h; cases h
  | some s => rfl

/-- A request comes before anything has changed, two while the store works on an action of the program, one of
them a command, and one in the end. -/
def exLiveOps : List LOp :=
  [.request ⟨.get, "/api".toList⟩, .store (.user (.dispatch (.act 1))), .store .begin, .store (.go 0), .store (.go 0),
   .store .begin, .store (.go 0), .store (.go 0), .request ⟨.post, "/api/undo".toList⟩, .store (.go 0),
   .request ⟨.get, "/api".toList⟩,
   .store .begin, .store (.go 0), .store (.go 0), .store .begin, .store (.go 0), .store (.go 0), .store (.go 0),
   .request ⟨.get, "/api".toList⟩]

example : Live.Reach exSite (Store.exDebug false false) exBlank (exLive exLiveOps) := exLive_reach (by decide +kernel)

/-- The answers, and the state in the end; the actions are the one of the program and the command. -/
example : (exLive exLiveOps).par.jobs.isEmpty = true ∧ (exLive exLiveOps).par.st.queue.isEmpty = true ∧
    dispatches (exLive exLiveOps).par.st.log = [.act 1, .undo] ∧
    (exLive exLiveOps).answers.map (fun x => x.2.map (·.body)) =
      [some (.api 0 0 false), some (.text ""), some (.api 1 1 false), some (.api 1 0 false)] ∧
    (exLive exLiveOps).seen = (exLive exLiveOps).par.st.get ∧
    (exLive exLiveOps).seen.history.length = 1 ∧ (exLive exLiveOps).par.st.fu.ub = false := by decide +kernel

example : ∀ d e, SEv.lost d e ∉ (exLive exLiveOps).par.st.log := by
  intro d e h
  have : (exLive exLiveOps).par.st.log.any (fun x => match x with | .lost _ _ => true | _ => false) = true :=
    List.any_eq_true.2 ⟨_, h, rfl⟩
  revert this
  decide +kernel

/-- In the middle of the call of the watchers, when the command is answered. -/
example : Live.Reach exSite (Store.exDebug false false) exBlank (exLive (exLiveOps.take 9)) ∧
    (exLive (exLiveOps.take 9)).par.jobs.length = 1 := ⟨exLive_reach (by decide +kernel), by decide +kernel⟩

example : Commands ⟨.post, "/api/undo".toList⟩ (Action.undo : Action Nat) ∧
    Commands ⟨.post, "/api/goto/".toList ++ ['4', '2']⟩ (Action.goto_ 42 : Action Nat) :=
  ⟨.inl ⟨_, .head _, rfl⟩, .inr ⟨_, 42, ⟨by decide, by decide, rfl⟩, by decide, rfl, rfl⟩⟩

/-- C104 is FALSE if a watcher throws that is called before the one of the server: when nothing is left to do, the
server goes on showing a model that the store had before. -/
theorem C104_missed_false : ∃ s : Live Nat Nat, Live.Reach exSite (Store.exDebug false false) exBlank s ∧
    s.par.jobs = [] ∧ s.par.st.idle ∧ (∃ v, SEv.shown v ∈ s.par.st.log) ∧
    s.seen.cursor = 1 ∧ s.par.st.get.cursor = 2 ∧
    (Store.exDebug false false).sound ∧ (Store.exDebug false false).trans = false := by
  let t : List LOp := [.store .begin, .store (.go 0), .store (.go 0), .store .begin, .store (.go 0), .store (.go 0)]
  let ops : List LOp := [.store (.user (.dispatch (.act 1)))] ++ t ++ [.store (.go 0), .store (.user (.dispatch (.act 1)))] ++
    t ++ [.store (.raise 0)]
  have h : (exLive ops).par.st.log.any (fun x => match x with | .shown _ => true | _ => false) = true := by
    decide +kernel
  refine ⟨exLive ops, exLive_reach (by decide +kernel), List.isEmpty_iff.1 (by decide +kernel),
    List.isEmpty_iff.1 (by decide +kernel), ?_, by decide +kernel, by decide +kernel, Store.exDebug_sound, rfl⟩
  obtain ⟨x, h1, h2⟩ := List.any_eq_true.1 h
  cases x with
  | shown v => exact ⟨v, h1⟩
  | _ => cases h2

end Verif.Http
