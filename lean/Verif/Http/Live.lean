import Verif.Http.Props
import Verif.Store.Props7
import Verif.Store.Debug

/-!
The web server of the debugger together with the store that it debugs.  The store runs in its own thread (or
strand), with tasks divided into steps as in `Verif.Store.Threads`; the thread of the server answers requests at
any moment in between.  They share `model_`, an `immer::atom`, and the context.

Each handler of a request either loads `model_` once, or dispatches once, or does neither, so a request is one
step.
-/

namespace Verif.Http

open Verif.Debugger (Model Action)
open Verif.Store (Cfg Par POp Job SOp St SEv dispatches reductions shows lastShown fold)

variable {A M : Type}

/-- The store, `model_` (`lager/debug/http_server.hpp:361-368`), and the requests answered so far. -/
structure Live (A M : Type) where
  par : Par (Action A) (Model A M)
  seen : Model A M
  answers : List (Req × Option (Res (Body A M)))

/-- Is this the end of a call of the watchers of the store, so that the one of the server has been called?  It is
called last: the server watches a reader that is derived from the store (`lager/debug/debugger.hpp:215-217`). -/
def updates (p : Par (Action A) (Model A M)) : POp (Action A) → Bool
  | .go n =>
    match p.jobs[n]? with
    | some (.watching _ true) => true
    | _ => false
  | _ => false

/-- The actions that a handler dispatches, `context_.dispatch`. -/
def post (c : Cfg (Action A) (Model A M)) : List (Action A) → Par (Action A) (Model A M) →
    Option (Par (Action A) (Model A M))
  | [], p => some p
  | a :: as, p => (Par.step c 1 p (.user (.dispatch a))).bind (post c as)

/-- Where the resources of the server are, the file system, and `mime_type_`. -/
structure Site where
  resources : List Char
  files : List Char → Option String
  mime : List Char → String

/-- A request is answered. -/
def Site.ask (w : Site) (q : Req) (m : Model A M) : Srv A M × Option (Res (Body A M)) :=
  Http.ask w.resources w.files w.mime q ⟨m, []⟩

/-- One step. -/
inductive Live.Step (w : Site) (c : Cfg (Action A) (Model A M)) (s : Live A M) : Live A M → Prop where
  /-- something happens to the store; `model_` is assigned in the callback of the server,
  `lager/debug/http_server.hpp:254` -/
  | store (op) {p'} : Par.step c 1 s.par op = some p' →
      Step w c s ⟨p', if updates s.par op then s.par.st.last else s.seen, s.answers⟩
  /-- a watcher throws that is called after the one of the server (`store` is the other case) -/
  | late (n) {p'} : Par.step c 1 s.par (.raise n) = some p' → Step w c s ⟨p', s.par.st.last, s.answers⟩
  /-- a request is answered, `lager/debug/http_server.hpp:263-354` -/
  | request (q) {p'} : post c (w.ask q s.seen).1.dispatched s.par = some p' →
      Step w c s ⟨p', s.seen, s.answers ++ [(q, (w.ask q s.seen).2)]⟩

/-- Everything that can happen from the beginning; `blank` is the value of `model_` before the store changes. -/
inductive Live.Reach (w : Site) (c : Cfg (Action A) (Model A M)) (blank : Model A M) : Live A M → Prop where
  | start : Reach w c blank ⟨Par.start c, blank, []⟩
  | step {s s'} : Reach w c blank s → Live.Step w c s s' → Reach w c blank s'

/-! ### Helpers -/

theorem post_reach {c : Cfg (Action A) (Model A M)} {as : List (Action A)} {p p' : Par (Action A) (Model A M)}
    (r : Par.Reach c 1 p) (h : post c as p = some p') : Par.Reach c 1 p' := by
  induction as generalizing p with
  | nil => cases h; exact r
  | cons a as ih =>
    simp only [post, Option.bind_eq_some_iff] at h
    obtain ⟨p1, h1, h2⟩ := h
    exact ih (r.step _ h1) h2

theorem reach_par {w : Site} {c : Cfg (Action A) (Model A M)} {blank : Model A M} {s : Live A M}
    (r : Live.Reach w c blank s) : Par.Reach c 1 s.par := by
  induction r with
  | start => exact .start
  | step _ hs ih =>
    cases hs with
    | store op h => exact ih.step op h
    | late n h => exact ih.step _ h
    | request q h => exact post_reach ih h

/-- Are the watchers being called? -/
def Watching (p : Par (Action A) (Model A M)) : Prop := ∃ it, p.jobs = [.watching it true]

theorem shows_nil_last {l : List (SEv A M)} (h : shows l = []) (v : M) : lastShown v l = v := by
  induction l with
  | nil => rfl
  | cons e l ih => cases e <;> first | exact ih h | cases h

theorem quiet_shows {l : List (SEv A M)} (h : ∀ e ∈ l, SEv.isTask e = false) : shows l = [] := by
  induction l with
  | nil => rfl
  | cons e l ih =>
    have he := h e (.head _)
    have hl := ih fun x hx => h x (.tail _ hx)
    cases e <;> first | exact hl | cases he

/-- While the watchers are called, the members of the store have the value that they get, which is the model
after all actions that were reduced. -/
theorem watching_last {c : Cfg (Action A) (Model A M)} (hc : c.sound) {p : Par (Action A) (Model A M)}
    (r : Par.Reach c 1 p) (hw : Watching p) (v : Model A M) :
    lastShown v p.st.log = p.st.last ∧ p.st.last = fold c (reductions p.st.log) := by
  obtain ⟨s, hr, h⟩ := r.rel hc
  have k := hr.core hc
  obtain ⟨it, hj⟩ := hw
  have hh := h.here
  rw [hj] at hh
  obtain ⟨h1, _, h3, _, h5⟩ := hh
  have h5' : Store.sends c it = true ∧ s.dirty = true := by simpa using h5.symm
  have hl : p.st.last = s.cur := by
    simp only [Store.St.node, Prod.mk.injEq] at h1
    rw [← h1.2.1]
    simp [Store.pubIf, h5'.1, Store.St.sendDown, Store.St.notify, h5'.2]
  have h3' : Store.SameLog (s.log ++ [.shown s.cur]) p.st.log := by
    have : Store.pubLog c it s = [.shown s.cur] := by simp [Store.pubLog, h5'.1, h5'.2]
    rwa [this] at h3
  constructor
  · rw [← Store.lastShown_filter, ← h3'.1, Store.lastShown_filter, Store.lastShown_append, hl]
    rfl
  · rw [hl, k.cur, ← h3'.reductions, Store.reductions_append]
    simp [reductions]

/-- What a step of a task adds to the log. -/
theorem job_log {c : Cfg (Action A) (Model A M)} {t t' : St (Action A) (Model A M)}
    {x : Job (Action A) (Model A M)} {o : Option (Job (Action A) (Model A M))} (hg : x.go c t = some (t', o)) :
    ∃ l, t'.log = t.log ++ l ∧ (shows l = [] ∨ ∃ it, o = some (.watching it true)) ∧
      ((∃ it, x = .watching it true) → shows l = []) := by
  cases x with
  | reducing d a i =>
    simp only [Store.Job.go] at hg
    split at hg
    · cases hg
      exact ⟨[.reduceThrew d t.cur a], rfl, .inl rfl, fun ⟨it, e⟩ => (nomatch e)⟩
    · simp only [Option.map_eq_some_iff] at hg
      obtain ⟨s1, h1, h2⟩ := hg
      cases h2
      simp only [Store.St.reduced, Option.map_eq_some_iff] at h1
      obtain ⟨s2, h2, rfl⟩ := h1
      refine ⟨[.reduced d t.cur a (c.reducer t.cur a).1 (c.reducer t.cur a).2], ?_, .inl rfl,
        fun ⟨it, e⟩ => (nomatch e)⟩
      have : s2.log = t.log := by
        split at h2
        · split at h2
          · exact (Store.complete_toks h2).log
          · cases h2; rfl
        · cases h2; rfl
      show s2.log ++ _ = _
      rw [this]
  | pushing v =>
    cases hg
    refine ⟨[], ?_, .inl rfl, fun ⟨it, e⟩ => (nomatch e)⟩
    unfold Store.St.pushDown
    split <;> simp
  | sending it =>
    cases hg
    refine ⟨[], ?_, .inl rfl, fun ⟨it, e⟩ => (nomatch e)⟩
    unfold Store.St.sendDown
    split
    · split <;> simp
    · simp
  | notifying it =>
    cases hg
    by_cases hs : (Store.sends c it && t.ntf && !t.dirty) = true
    · refine ⟨[.shown t.last], ?_, (.inr ⟨it, ?_⟩), fun ⟨it, e⟩ => (nomatch e)⟩
      · have h1 : Store.sends c it = true ∧ (t.ntf && !t.dirty) = true := by
          simpa [and_assoc] using hs
        rw [if_pos h1.1]
        unfold Store.St.notify
        rw [if_pos h1.2]
      · rw [hs]
    · refine ⟨[], ?_, .inl rfl, fun ⟨it, e⟩ => (nomatch e)⟩
      rw [List.append_nil]
      split
      · rename_i h1
        unfold Store.St.notify
        rw [if_neg]
        rw [h1, Bool.true_and] at hs
        exact hs
      · rfl
  | watching it b =>
    simp only [Store.Job.go, Option.map_eq_some_iff] at hg
    obtain ⟨s1, h1, h2⟩ := hg
    cases h2
    unfold Store.St.after at h1
    split at h1
    · rename_i d e i
      cases h1
      exact ⟨[.ready d, .effStart d t.nx e], by simp [Store.St.say], .inl rfl, fun _ => rfl⟩
    · rename_i d i
      refine ⟨[.ready d], ?_, .inl rfl, fun _ => rfl⟩
      rw [(Store.complete_toks h1).log]
      rfl
    · cases h1
      exact ⟨[], by rw [List.append_nil], .inl rfl, fun _ => rfl⟩
    · cases h1

/-- What a step of the store adds to the log. -/
theorem par_log {c : Cfg (Action A) (Model A M)} {p p' : Par (Action A) (Model A M)} (hl1 : p.jobs.length ≤ 1)
    {op : POp (Action A)} (h : Par.step c 1 p op = some p') :
    ∃ l, p'.st.log = p.st.log ++ l ∧ (shows l = [] ∨ Watching p') ∧
      (Watching p → Watching p' ∨ updates p op = true ∨ ∃ n, op = .raise n) ∧
      (∀ n, op = .raise n → ∃ d e, SEv.lost d e ∈ l) ∧
      (updates p op = true → Watching p ∧ shows l = []) := by
  obtain ⟨t, js, pk⟩ := p
  dsimp only at hl1
  cases op with
  | begin =>
    simp only [Par.step] at h
    split at h
    · rename_i hl
      have hj : js = [] := List.length_eq_zero_iff.1 (by simpa using hl)
      subst hj
      have hw : ∀ q, ¬ Watching (A := A) (M := M) ⟨t, [], q⟩ := fun q ⟨it, h⟩ => nomatch h
      refine ⟨[], ?_, .inl rfl, fun h => absurd h (hw _), nofun, nofun⟩
      rw [List.append_nil]
      unfold Par.begin at h
      split at h
      · cases h
      · cases h; rfl
      · simp only [Option.map_eq_some_iff] at h
        obtain ⟨s1, h1, rfl⟩ := h
        exact (Store.runTask_toks h1).log
      · cases h; rfl
    · cases h
  | commit =>
    simp only [Par.step] at h
    split at h
    · rename_i hl
      have hj : js = [] := List.length_eq_zero_iff.1 (by have := hl.1; simpa using this)
      subst hj
      cases h
      refine ⟨[], by rw [List.append_nil], .inl rfl, fun ⟨it, h⟩ => (nomatch h), nofun, nofun⟩
    · cases h
  | go n =>
    simp only [Par.step] at h
    split at h
    · cases h
    · rename_i j hj
      simp only [Option.map_eq_some_iff] at h
      obtain ⟨⟨t', o⟩, hg, rfl⟩ := h
      match js, n, hj, hl1 with
      | [x], 0, hj, _ =>
        have hxj : x = j := by simpa using hj
        subst hxj
        have hup : updates (A := A) (M := M) ⟨t, [x], pk⟩ (.go 0) = true ↔ ∃ it, x = .watching it true := by
          simp only [updates, List.getElem?_cons_zero]
          split
          · rename_i h; cases h; exact ⟨fun _ => ⟨_, rfl⟩, fun _ => rfl⟩
          · rename_i hx
            exact ⟨(nomatch ·), fun ⟨it, e⟩ => absurd (congrArg some e) (hx it)⟩
        have hW : Watching (A := A) (M := M) ⟨t, [x], pk⟩ ↔ ∃ it, x = .watching it true :=
          ⟨fun ⟨it, e⟩ => ⟨it, by cases e; rfl⟩, fun ⟨it, e⟩ => ⟨it, by rw [e]⟩⟩
        obtain ⟨l, h1, h2, h3⟩ := job_log hg
        refine ⟨l, h1, ?_, fun hw => .inr (.inl (hup.2 (hW.1 hw))), nofun,
          fun hu => ⟨hW.2 (hup.1 hu), h3 (hup.1 hu)⟩⟩
        rcases h2 with h2 | ⟨it, rfl⟩
        · exact .inl h2
        · exact .inr ⟨it, rfl⟩
      | [], k, hj, _ => simp at hj
      | [x], k + 1, hj, _ => simp at hj
      | x :: y :: l, _, _, h => simp at h
  | raise n =>
    simp only [Par.step] at h
    split at h
    · cases h
    · rename_i j hj
      simp only [Option.map_eq_some_iff] at h
      obtain ⟨t', hg, rfl⟩ := h
      unfold Store.Job.raise at hg
      split at hg
      · rename_i d e i
        cases hg
        exact ⟨[.lost d (some e)], rfl, .inl rfl, fun _ => .inr (.inr ⟨n, rfl⟩), fun _ _ => ⟨d, some e, .head _⟩, nofun⟩
      · rename_i d i
        cases hg
        exact ⟨[.lost d none], rfl, .inl rfl, fun _ => .inr (.inr ⟨n, rfl⟩), fun _ _ => ⟨d, none, .head _⟩, nofun⟩
      · cases hg
  | user op =>
    simp only [Par.step] at h
    split at h
    · rename_i hu
      simp only [Option.map_eq_some_iff] at h
      obtain ⟨t', h1, rfl⟩ := h
      obtain ⟨l, h2, h3⟩ := Store.user_quiet c hu h1
      exact ⟨l, h2, .inl (quiet_shows h3), fun hw => .inl hw, nofun, nofun⟩
    · cases h
  | peek =>
    cases h
    exact ⟨[], by rw [List.append_nil], .inl rfl, fun hw => .inl hw, nofun, nofun⟩
  | peeked =>
    simp only [Par.step] at h
    split at h
    · cases h
    · cases h
      exact ⟨[], by rw [List.append_nil], .inl rfl, fun hw => .inl hw, nofun, nofun⟩

end Verif.Http
