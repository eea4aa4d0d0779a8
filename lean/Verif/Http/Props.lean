import Verif.Http.Model
import Verif.Debugger.Props

/-!
Properties of the web server of the debugger: C72, C77, C78.
-/

namespace Verif.Http

open Verif.Debugger (Model Action Reducer Step modelAfter Genuine)

variable {S B A M : Type}

/-- A route is meant for a request. -/
def Meant (r : Route S B) (q : Req) : Prop := r.method = q.method ∧ Lang r.target q.target

theorem fits_iff (r : Route S B) (q : Req) : r.fits q = true ↔ Meant r q := by
  rw [Route.fits, Bool.and_eq_true, accepts_iff, beq_iff_eq]
  rfl

/-- C72: a request is answered by the handler of the first route whose method and pattern match: with its response, or
with 500 and the message of the exception it throws. -/
theorem C72_first (text : String → B) (rs rs' : List (Route S B)) (r : Route S B) {q : Req} (hr : Meant r q)
    (hrs : ∀ p ∈ rs, ¬ Meant p q) (s s' : S) :
    (∀ x, r.handler q s = (s', .res x) → handle text (rs ++ r :: rs') q s = (s', some x)) ∧
    (∀ what, r.handler q s = (s', .std what) →
      handle text (rs ++ r :: rs') q s = (s', some ⟨500, "text/html", text what⟩)) := by
  have hf : (rs ++ r :: rs').find? (·.fits q) = some r := by
    rw [List.find?_append, List.find?_eq_none.mpr fun p hp h => hrs p hp ((fits_iff p q).mp h)]
    simp only [Option.none_or, List.find?_cons, (fits_iff r q).mpr hr]
  constructor <;> intro x hx <;> rw [handle, hf] <;> simp only [hx]

/-- C72: a request for which there is no route is answered with 404, and does nothing. -/
theorem C72_none (text : String → B) (rs : List (Route S B)) {q : Req} (hrs : ∀ p ∈ rs, ¬ Meant p q) (s : S) :
    handle text rs q s = (s, some ⟨404, "text/html", text "Not found"⟩) := by
  rw [handle, List.find?_eq_none.mpr fun p hp h => hrs p hp ((fits_iff p q).mp h)]

/-- Three routes: numbers, which fail above `limit`, everything, and everything again. -/
def exRoutes : List (Route Nat String) :=
  [⟨.get, plus (.cls isDigit), fun q s => if q.target.length ≤ 3 then (s + 1, .res ⟨200, "", "number"⟩) else (s, .std "long")⟩,
   ⟨.get, .star (.cls isDot), fun _ s => (s, .res ⟨200, "", "first"⟩)⟩,
   ⟨.get, .star (.cls isDot), fun _ s => (s, .other)⟩]

example : handle id exRoutes ⟨.get, ['4', '2']⟩ 0 = (1, some ⟨200, "", "number"⟩) ∧
    handle id exRoutes ⟨.get, ['4', '2', '4', '2']⟩ 0 = (0, some ⟨500, "text/html", "long"⟩) ∧
    handle id exRoutes ⟨.get, ['4', 'x']⟩ 0 = (0, some ⟨200, "", "first"⟩) ∧
    handle id exRoutes ⟨.post, ['4', '2']⟩ 0 = (0, some ⟨404, "text/html", "Not found"⟩) := by decide +kernel

/-- C72: an exception that is not derived from `std::exception` ends the program instead. -/
theorem C72_other_false : ∃ (rs : List (Route Nat String)) (q : Req), handle id rs q 0 = (0, none) :=
  ⟨exRoutes.drop 2, ⟨.get, ['x']⟩, by decide +kernel⟩

/-- Specification: the responses to a sequence of requests. -/
def answers (text : String → B) (rs : List (Route S B)) : List Req → S → List (Res B)
  | [], _ => []
  | q :: qs, s => match handle text rs q s with
    | (s', some r) => r :: answers text rs qs s'
    | (_, none) => []

/-- Specification: the state after a sequence of requests. -/
def after (text : String → B) (rs : List (Route S B)) (qs : List Req) (s : S) : S :=
  qs.foldl (fun s q => (handle text rs q s).1) s

/-- The requests that were read. -/
def reads : List Ev → List Req
  | [] => []
  | .readOk q :: es => q :: reads es
  | _ :: es => reads es

theorem answers_append (text : String → B) (rs : List (Route S B)) (qs : List Req) (q : Req) (s : S)
    (h : (answers text rs qs s).length = qs.length) :
    answers text rs (qs ++ [q]) s = answers text rs qs s ++ (handle text rs q (after text rs qs s)).2.toList := by
  induction qs generalizing s with
  | nil =>
    show (match handle text rs q s with
      | (s', some r) => r :: answers text rs [] s'
      | (_, none) => []) = _
    simp only [answers, after, List.foldl_nil, List.nil_append]
    rcases handle text rs q s with ⟨_, _ | r⟩ <;> rfl
  | cons x xs ih =>
    rw [List.cons_append]
    simp only [answers] at h ⊢
    rcases hx : handle text rs x s with ⟨s', _ | r⟩
    · rw [hx] at h
      simp at h
    · rw [hx] at h
      simp only [List.length_cons, Nat.add_right_cancel_iff] at h
      simp only [ih s' h, List.cons_append, after, List.foldl_cons, hx]

/-- C72: a session answers each request it has read, in the order in which it read them, once, and no others.  The handlers
are called in that order too.  Nothing happens after it was closed. -/
theorem C72_session (text : String → B) (eof : Res B → Bool) (rs : List (Route S B)) (s : S) (es : List Ev)
    {x : Session S B} (h : (Session.new s).run text eof rs es = some x) :
    x.asked = reads es ∧ x.sent = answers text rs (reads es) s ∧ x.state = after text rs (reads es) s ∧
    (x.phase ≠ .ended → x.sent.length = x.asked.length) ∧
    (x.phase = .closed ∨ x.phase = .ended → ∀ e, x.step text eof rs e = none) := by
  suffices key : ∀ (qs : List Req) (y : Session S B), y.asked = qs → y.sent = answers text rs qs s →
      y.state = after text rs qs s → (y.phase ≠ .ended → y.sent.length = y.asked.length) →
      y.run text eof rs es = some x →
      x.asked = qs ++ reads es ∧ x.sent = answers text rs (qs ++ reads es) s ∧
      x.state = after text rs (qs ++ reads es) s ∧ (x.phase ≠ .ended → x.sent.length = x.asked.length) by
    obtain ⟨h1, h2, h3, h4⟩ := key [] (Session.new s) rfl rfl rfl (fun _ => rfl) h
    refine ⟨h1, h2, h3, h4, ?_⟩
    rintro hp e
    rcases hp with hp | hp <;> cases e <;> simp [Session.step, hp]
  clear h
  induction es with
  | nil =>
    intro qs y h1 h2 h3 h4 h
    cases h
    simp only [reads, List.append_nil]
    exact ⟨h1, h2, h3, h4⟩
  | cons e es ih =>
    intro qs y h1 h2 h3 h4 h
    rw [Session.run] at h
    cases e with
    | readOk q =>
      simp only [Session.step] at h
      split at h
      · next z hz =>
        split at hz
        · next hp =>
          have hlen : (answers text rs qs s).length = qs.length := by
            rw [← h2, h4 (by rw [hp]; intro h; cases h), h1]
          have ha := answers_append text rs qs q s hlen
          have hs : after text rs (qs ++ [q]) s = (handle text rs q (after text rs qs s)).1 := by
            rw [after, List.foldl_append]; rfl
          rw [h3] at hz
          simp only [reads]
          rw [show qs ++ q :: reads es = (qs ++ [q]) ++ reads es by simp]
          rcases hq : handle text rs q (after text rs qs s) with ⟨s', _ | r⟩
          · rw [hq] at hz ha hs
            cases hz
            refine ih (qs ++ [q]) _ (by rw [h1]) ?_ hs.symm (fun h => absurd rfl h) h
            rw [ha, h2]
            simp
          · rw [hq] at hz ha hs
            cases hz
            refine ih (qs ++ [q]) _ (by rw [h1]) ?_ hs.symm (fun _ => ?_) h
            · rw [ha, h2]
              rfl
            · simp [h4 (by rw [hp]; intro h; cases h)]
        · cases hz
      · cases h
    | readError =>
      simp only [Session.step] at h
      split at h
      · next z hz =>
        split at hz
        · next hp =>
          cases hz
          exact ih qs { y with phase := .closed } h1 h2 h3 (fun _ => h4 (by rw [hp]; intro h; cases h)) h
        · cases hz
      · cases h
    | written =>
      simp only [Session.step] at h
      split at h
      · next z hz =>
        split at hz
        · next close hp =>
          cases hz
          exact ih qs { y with phase := if close then .closed else .reading } h1 h2 h3 (fun _ => h4 (by rw [hp]; intro h; cases h)) h
        · cases hz
      · cases h
    | writeError =>
      simp only [Session.step] at h
      split at h
      · next z hz =>
        split at hz
        · next close hp =>
          cases hz
          exact ih qs { y with phase := .closed } h1 h2 h3 (fun _ => h4 (by rw [hp]; intro h; cases h)) h
        · cases hz
      · cases h

example : ∃ x, (Session.new 0).run id (fun _ => false) exRoutes
    [.readOk ⟨.get, ['4']⟩, .written, .readOk ⟨.get, ['5']⟩, .written, .readError] = some x ∧ x.phase = .closed ∧
    x.state = 2 ∧ x.sent.length = 2 := ⟨_, rfl, rfl, by decide +kernel, by decide +kernel⟩

/-- C72: a response is sent completely before the next request is read. -/
theorem C72_one_at_a_time (text : String → B) (eof : Res B → Bool) (rs : List (Route S B)) (x y : Session S B) (q q' : Req)
    (h : x.step text eof rs (.readOk q) = some y) : y.step text eof rs (.readOk q') = none := by
  simp only [Session.step] at h
  split at h
  · split at h <;> cases h <;> simp [Session.step]
  · cases h

/-- What the patterns stand for. -/
theorem lang_reApi (w : List Char) : Lang reApi w ↔ w = "/api".toList ∨ w = "/api/".toList := by
  unfold reApi
  rw [lang_seq]
  constructor
  · rintro ⟨u, v, rfl, h, h'⟩
    rw [lang_lit] at h
    rw [lang_opt, lang_lit] at h'
    rcases h' with rfl | rfl
    · right; rw [h]; rfl
    · left; rw [h]; rfl
  · rintro (rfl | rfl)
    · exact ⟨_, [], by rw [List.append_nil], (lang_lit _ _).mpr rfl, (lang_opt _ _).mpr (.inr rfl)⟩
    · exact ⟨"/api".toList, ['/'], rfl, (lang_lit _ _).mpr rfl, (lang_opt _ _).mpr (.inl ((lang_lit _ _).mpr rfl))⟩

theorem lang_numbered (l w : List Char) :
    Lang (.seq (lit l) (plus (.cls isDigit))) w ↔ ∃ d, w = l ++ d ∧ d ≠ [] ∧ ∀ c ∈ d, isDigit c = true := by
  rw [lang_seq]
  constructor
  · rintro ⟨u, v, rfl, h, h'⟩
    rw [lang_lit] at h
    rw [lang_plus_cls] at h'
    exact ⟨v, by rw [h], h'⟩
  · rintro ⟨d, rfl, h⟩
    exact ⟨l, d, rfl, (lang_lit _ _).mpr rfl, (lang_plus_cls _ _).mpr h⟩

theorem lang_reFile (w : List Char) : Lang reFile w ↔ ∀ c ∈ w, isDot c = true := by
  unfold reFile
  rw [lang_seq]
  constructor
  · rintro ⟨u, v, rfl, h, h'⟩
    rw [lang_opt, lang_lit] at h
    rw [lang_star_cls] at h'
    intro c hc
    rcases List.mem_append.mp hc with hc | hc
    · rcases h with rfl | rfl
      · simp at hc; rw [hc]; decide
      · cases hc
    · exact h' c hc
  · intro h
    exact ⟨[], w, rfl, (lang_opt _ _).mpr (.inr rfl), (lang_star_cls _ _).mpr h⟩

/-- The decimal digits of a number. -/
structure Number (d : List Char) (n : Nat) : Prop where
  some : d ≠ []
  digits : ∀ c ∈ d, isDigit c = true
  value : d.foldl (fun n c => 10 * n + (c.toNat - '0'.toNat)) 0 = n

theorem lastPart_append (l d : List Char) (h : ∀ c ∈ d, isDigit c = true) : lastPart (l ++ '/' :: d) = d := by
  have hne : ∀ c ∈ d, (c != '/') = true := by
    intro c hc
    have := h c hc
    rw [bne_iff_ne]
    rintro rfl
    exact absurd this (by decide)
  unfold lastPart
  rw [List.reverse_append, List.reverse_cons, List.append_assoc, List.takeWhile_append_of_pos (by
    intro c hc
    exact hne c (List.mem_reverse.mp hc))]
  simp

variable (resources : List Char) (files : List Char → Option String) (mime : List Char → String)

/-- The answer of the server, and what it does. -/
def ask (q : Req) (s : Srv A M) : Srv A M × Option (Res (Body A M)) := handle .text (routes resources files mime) q s

theorem find_get (t : List Char) : ((routes (A := A) (M := M) resources files mime).find? (·.fits ⟨.get, t⟩)) =
    if reApi.accepts t then some ⟨.get, reApi, onApi⟩
    else if reStep.accepts t then some ⟨.get, reStep, onStep⟩
    else if reFile.accepts t then some ⟨.get, reFile, onFile resources files mime⟩
    else none := by
  simp only [routes, List.foldl_cons, List.foldl_nil, route, List.nil_append, List.cons_append, List.find?_cons, Route.fits,
    List.find?_nil, beq_self_eq_true, Bool.true_and, show (Verb.post == Verb.get) = false from rfl, Bool.false_and]
  cases reApi.accepts t <;> cases reStep.accepts t <;> cases reFile.accepts t <;> rfl

theorem find_post (t : List Char) : ((routes (A := A) (M := M) resources files mime).find? (·.fits ⟨.post, t⟩)) =
    if reGoto.accepts t then some ⟨.post, reGoto, onGoto⟩
    else if (lit "/api/undo".toList).accepts t then some ⟨.post, lit "/api/undo".toList, onCommand .undo⟩
    else if (lit "/api/redo".toList).accepts t then some ⟨.post, lit "/api/redo".toList, onCommand .redo⟩
    else if (lit "/api/pause".toList).accepts t then some ⟨.post, lit "/api/pause".toList, onCommand .pause⟩
    else if (lit "/api/resume".toList).accepts t then some ⟨.post, lit "/api/resume".toList, onCommand .resume⟩
    else none := by
  simp only [routes, List.foldl_cons, List.foldl_nil, route, List.nil_append, List.cons_append, List.find?_cons, Route.fits,
    List.find?_nil, beq_self_eq_true, Bool.true_and, show (Verb.get == Verb.post) = false from rfl, Bool.false_and]
  cases reGoto.accepts t <;> cases (lit "/api/undo".toList).accepts t <;> cases (lit "/api/redo".toList).accepts t <;>
    cases (lit "/api/pause".toList).accepts t <;> cases (lit "/api/resume".toList).accepts t <;> rfl

theorem not_api_step (d : List Char) : reApi.accepts ("/api/step/".toList ++ d) = false := by
  rw [Bool.eq_false_iff]
  intro h
  rw [accepts_iff, lang_reApi] at h
  rcases h with h | h <;> have := congrArg List.length h <;> simp at this <;> omega

/-- C77: the overview shows the length of the history, the cursor, and whether the debugger is paused. -/
theorem C77_overview (s : Srv A M) {t : List Char} (ht : t = "/api".toList ∨ t = "/api/".toList) :
    ask resources files mime ⟨.get, t⟩ s =
      (s, some ⟨200, "application/json", .api s.model.history.length s.model.cursor s.model.paused⟩) := by
  rw [ask, handle, find_get, if_pos ((accepts_iff _ _).mpr ((lang_reApi t).mpr ht))]
  rfl

/-- C77: `step/n` shows the action of the `n`th step and the model after it, the initial model if `n` is 0, and is answered
with 500 if there is no such step or the number is too large to be one. -/
theorem C77_step (s : Srv A M) {d : List Char} {n : Nat} (hd : Number d n) :
    (∀ m, n ≤ s.model.history.length → n < 2 ^ 64 → modelAfter s.model.init s.model.history n = some m →
      ask resources files mime ⟨.get, "/api/step/".toList ++ d⟩ s =
        (s, some ⟨200, "application/json",
          .step (if n = 0 then none else (s.model.history[n - 1]?).map (·.action)) m⟩)) ∧
    (s.model.history.length < n ∨ 2 ^ 64 ≤ n → ∃ what,
      ask resources files mime ⟨.get, "/api/step/".toList ++ d⟩ s = (s, some ⟨500, "text/html", .text what⟩)) := by
  have hfind : (routes (A := A) (M := M) resources files mime).find? (·.fits ⟨.get, "/api/step/".toList ++ d⟩) =
      some ⟨.get, reStep, onStep⟩ := by
    rw [find_get, not_api_step, if_neg (by simp),
      if_pos ((accepts_iff reStep _).mpr ((lang_numbered _ _).mpr ⟨d, rfl, hd.some, hd.digits⟩))]
  have hlast : lastPart ("/api/step/".toList ++ d) = d :=
    lastPart_append "/api/step".toList d hd.digits
  constructor
  · intro m hle hlt hm
    rw [ask, handle, hfind]
    simp only [onStep, hlast, stoul, hd.value, if_pos hlt, Model.lookup, if_neg (Nat.not_lt.mpr hle)]
    cases n with
    | zero =>
      simp only [modelAfter, Option.some.injEq] at hm
      simp [respond, hm]
    | succ n =>
      simp only [modelAfter, Option.map_eq_some_iff] at hm
      obtain ⟨x, hx, rfl⟩ := hm
      simp [respond, hx]
  · intro h
    rw [ask, handle, hfind]
    by_cases hlt : n < 2 ^ 64
    · have hlen : n > s.model.history.length := h.elim (fun h => h) fun h => absurd hlt (Nat.not_lt.mpr h)
      exact ⟨"bad cursor", by simp only [onStep, hlast, stoul, hd.value, if_pos hlt, Model.lookup, if_pos hlen]⟩
    · exact ⟨"stoul", by simp only [onStep, hlast, stoul, hd.value, if_neg hlt]⟩

/-- C77: `goto/n` dispatches the action that goes to `n`, unless the number is too large. -/
theorem C77_goto (s : Srv A M) {d : List Char} {n : Nat} (hd : Number d n) :
    (n < 2 ^ 64 → ask resources files mime ⟨.post, "/api/goto/".toList ++ d⟩ s =
      ({ s with dispatched := s.dispatched ++ [.goto_ n] }, some ⟨200, "text/html", .text ""⟩)) ∧
    (2 ^ 64 ≤ n → ∃ what,
      ask resources files mime ⟨.post, "/api/goto/".toList ++ d⟩ s = (s, some ⟨500, "text/html", .text what⟩)) := by
  have hfind : (routes (A := A) (M := M) resources files mime).find? (·.fits ⟨.post, "/api/goto/".toList ++ d⟩) =
      some ⟨.post, reGoto, onGoto⟩ := by
    rw [find_post, if_pos ((accepts_iff reGoto _).mpr ((lang_numbered _ _).mpr ⟨d, rfl, hd.some, hd.digits⟩))]
  have hlast : lastPart ("/api/goto/".toList ++ d) = d :=
    lastPart_append "/api/goto".toList d hd.digits
  constructor
  · intro hlt
    rw [ask, handle, hfind]
    simp only [onGoto, hlast, stoul, hd.value, if_pos hlt, respond]
  · intro h
    rw [ask, handle, hfind]
    exact ⟨"stoul", by simp only [onGoto, hlast, stoul, hd.value, if_neg (Nat.not_lt.mpr h)]⟩

example : Number ['0', '4', '2'] 42 := ⟨by decide, by decide, rfl⟩

/-- The names of the other commands. -/
def commands : List (List Char × Action A) :=
  [("/api/undo".toList, .undo), ("/api/redo".toList, .redo), ("/api/pause".toList, .pause), ("/api/resume".toList, .resume)]

theorem accepts_lit (u v : List Char) : (lit u).accepts v = decide (v = u) := by
  rw [Bool.eq_iff_iff, accepts_iff, lang_lit, decide_eq_true_iff]

theorem goto_prefix {t : List Char} (h : reGoto.accepts t = true) : "/api/goto/".toList <+: t := by
  obtain ⟨d, rfl, _⟩ := (lang_numbered _ _).mp ((accepts_iff _ _).mp h)
  exact ⟨d, rfl⟩

/-- C77: the other commands dispatch their action. -/
theorem C77_command (s : Srv A M) {t : List Char} {a : Action A} (h : (t, a) ∈ commands) :
    ask resources files mime ⟨.post, t⟩ s =
      ({ s with dispatched := s.dispatched ++ [a] }, some ⟨200, "text/html", .text ""⟩) := by
  simp only [commands, List.mem_cons, List.not_mem_nil, or_false, Prod.mk.injEq] at h
  have hg : reGoto.accepts t = false := by
    rw [Bool.eq_false_iff]
    intro hg
    have := goto_prefix hg
    rcases h with ⟨rfl, rfl⟩ | ⟨rfl, rfl⟩ | ⟨rfl, rfl⟩ | ⟨rfl, rfl⟩ <;> revert this <;> decide
  rw [ask, handle, find_post, hg]
  simp only [accepts_lit]
  rcases h with ⟨rfl, rfl⟩ | ⟨rfl, rfl⟩ | ⟨rfl, rfl⟩ | ⟨rfl, rfl⟩ <;> rfl

/-- C77: no request changes what is shown, and no other request dispatches anything. -/
theorem C77_others (s : Srv A M) (q : Req) :
    (ask resources files mime q s).1.model = s.model ∧
    ((∀ d n, Number d n → q ≠ ⟨.post, "/api/goto/".toList ++ d⟩) →
      (∀ t a, (t, a) ∈ commands (A := A) → q ≠ ⟨.post, t⟩) →
      (ask resources files mime q s).1 = s ∧
      (q.method ≠ .get → (ask resources files mime q s).2 = some ⟨404, "text/html", .text "Not found"⟩)) := by
  obtain ⟨v, t⟩ := q
  cases v with
  | get =>
    refine (fun h => ⟨by rw [h], fun _ _ => ⟨h, fun hn => absurd rfl hn⟩⟩)
      (?_ : (ask resources files mime ⟨.get, t⟩ s).1 = s)
    rw [ask, handle, find_get]
    cases reApi.accepts t with
    | true => rfl
    | false =>
      cases reStep.accepts t with
      | true =>
        simp only [Bool.false_eq_true, if_false, if_true, onStep]
        cases stoul (lastPart t) with
        | none => rfl
        | some c =>
          simp only
          cases s.model.lookup c with
          | none => rfl
          | some x => rfl
      | false =>
        cases reFile.accepts t with
        | true =>
          simp only [Bool.false_eq_true, if_false, if_true, onFile]
          cases files (filePath resources t) <;> rfl
        | false => rfl
  | post =>
    rw [ask, handle, find_post]
    simp only [accepts_lit]
    cases hg : reGoto.accepts t with
    | true =>
      obtain ⟨d, rfl, h, h'⟩ := (lang_numbered _ _).mp ((accepts_iff _ _).mp hg)
      refine ⟨?_, fun hn => absurd rfl (hn d _ ⟨h, h', rfl⟩)⟩
      simp only [if_true, onGoto]
      cases stoul (lastPart ("/api/goto/".toList ++ d)) <;> rfl
    | false =>
      simp only [Bool.false_eq_true, if_false, decide_eq_true_eq]
      by_cases h1 : t = "/api/undo".toList
      · rw [if_pos h1]
        exact ⟨rfl, fun _ hn => absurd rfl (hn t .undo (by rw [h1]; simp [commands]))⟩
      by_cases h2 : t = "/api/redo".toList
      · rw [if_neg h1, if_pos h2]
        exact ⟨rfl, fun _ hn => absurd rfl (hn t .redo (by rw [h2]; simp [commands]))⟩
      by_cases h3 : t = "/api/pause".toList
      · rw [if_neg h1, if_neg h2, if_pos h3]
        exact ⟨rfl, fun _ hn => absurd rfl (hn t .pause (by rw [h3]; simp [commands]))⟩
      by_cases h4 : t = "/api/resume".toList
      · rw [if_neg h1, if_neg h2, if_neg h3, if_pos h4]
        exact ⟨rfl, fun _ hn => absurd rfl (hn t .resume (by rw [h4]; simp [commands]))⟩
      rw [if_neg h1, if_neg h2, if_neg h3, if_neg h4]
      exact ⟨rfl, fun _ _ => ⟨rfl, fun _ => rfl⟩⟩
  | other =>
    have : ask resources files mime ⟨.other, t⟩ s = (s, some ⟨404, "text/html", .text "Not found"⟩) := by
      refine C72_none _ _ ?_ s
      intro r hr hm
      have : r.method = .get ∨ r.method = .post := by
        simp only [routes, List.foldl_cons, List.foldl_nil, route, List.nil_append, List.cons_append, List.mem_cons,
          List.not_mem_nil, or_false] at hr
        rcases hr with rfl | rfl | rfl | rfl | rfl | rfl | rfl | rfl <;> simp
      rw [hm.1] at this
      rcases this with h | h <;> cases h
    rw [this]
    exact ⟨rfl, fun _ _ => ⟨rfl, fun _ => rfl⟩⟩

/-- A server that shows a history of two steps. -/
def exSrv : Srv Nat Nat := ⟨{ Model.start 10 with history := [⟨1, 11⟩, ⟨5, 16⟩], cursor := 1 }, []⟩

example : (ask [] (fun _ => none) (fun _ => "") ⟨.get, "/api/step/02".toList⟩ exSrv).2 =
      some ⟨200, "application/json", .step (some 5) 16⟩ ∧
    modelAfter exSrv.model.init exSrv.model.history 2 = some 16 ∧
    (ask [] (fun _ => none) (fun _ => "") ⟨.get, "/api/step/3".toList⟩ exSrv).2 =
      some ⟨500, "text/html", .text "bad cursor"⟩ ∧
    (ask [] (fun _ => none) (fun _ => "") ⟨.post, "/api/goto/7".toList⟩ exSrv).1.dispatched = [.goto_ 7] ∧
    (ask [] (fun _ => none) (fun _ => "") ⟨.post, "/api/goto/x".toList⟩ exSrv).2 =
      some ⟨404, "text/html", .text "Not found"⟩ := by decide +kernel

/-- The last model the store changed to. -/
def lastChange : List (Happens A M) → Option (Model A M)
  | [] => none
  | .changed m :: hs => some ((lastChange hs).getD m)
  | .request _ :: hs => lastChange hs

/-- C77: what is shown is the model the store changed to last. -/
theorem C77_snapshot (s : Srv A M) (hs : List (Happens A M)) :
    (hs.foldl (Srv.step (routes resources files mime)) s).model = (lastChange hs).getD s.model := by
  induction hs generalizing s with
  | nil => rfl
  | cons h hs ih =>
    rw [List.foldl_cons, ih]
    cases h with
    | changed m =>
      show _ = ((some ((lastChange hs).getD m)).getD s.model)
      rw [Option.getD_some]
      rfl
    | request q =>
      show _ = (lastChange hs).getD s.model
      rw [← (C77_others resources files mime s q).1]
      rfl

example : lastChange [Happens.changed (Model.start (A := Nat) 1), .request ⟨.get, []⟩, .changed (Model.start 2),
    .request ⟨.post, "/api/undo".toList⟩] = some (Model.start 2) := rfl

/-- C77: until the store changes, what is shown is a model made from nothing rather than the one the store has. -/
theorem C77_initial_false : ∃ initial blank : Nat, ∃ m : Model Nat Nat, m = Model.start initial ∧
    (ask [] (fun _ => none) (fun _ => "") ⟨.get, "/api/step/0".toList⟩ (Srv.new (A := Nat) blank)).2 =
      some ⟨200, "application/json", .step none blank⟩ ∧ modelAfter m.init m.history 0 = some initial ∧ initial ≠ blank :=
  ⟨5, 0, _, rfl, by decide +kernel, rfl, by decide⟩

/-- C77: whatever is requested before the store changes, the server shows no steps, a model made from nothing, and that the
debugger is not paused. -/
theorem C77_initial (zero : M) {hs : List (Happens A M)} (h : lastChange hs = none) :
    let s := hs.foldl (Srv.step (routes resources files mime)) (Srv.new zero)
    (∀ t, t = "/api".toList ∨ t = "/api/".toList → ask resources files mime ⟨.get, t⟩ s =
      (s, some ⟨200, "application/json", .api 0 0 false⟩)) ∧
    ∀ d n, Number d n → (n = 0 → ask resources files mime ⟨.get, "/api/step/".toList ++ d⟩ s =
        (s, some ⟨200, "application/json", .step none zero⟩)) ∧
      (n ≠ 0 → ∃ what, ask resources files mime ⟨.get, "/api/step/".toList ++ d⟩ s =
        (s, some ⟨500, "text/html", .text what⟩)) := by
  intro s
  have hm : s.model = Model.start zero := by
    have := C77_snapshot (resources := resources) (files := files) (mime := mime) (Srv.new zero) hs
    rw [h] at this
    exact this
  refine ⟨fun t ht => ?_, fun d n hd => ⟨fun hn => ?_, fun hn => ?_⟩⟩
  · rw [C77_overview _ _ _ s ht, hm]; rfl
  · subst hn
    exact (C77_step _ _ _ s hd).1 zero (Nat.zero_le _) (by decide) (by rw [hm]; rfl)
  · exact (C77_step _ _ _ s hd).2 (.inl (by rw [hm]; show 0 < n; omega))

example : lastChange [(.request ⟨.post, "/api/pause".toList⟩ : Happens Nat Nat), .request ⟨.get, "/api".toList⟩] = none := rfl

/-- C77: any other request for a target without line breaks is answered with the file of that name, or with 404. -/
theorem C77_file (s : Srv A M) {t : List Char} (h : t ≠ "/api".toList ∧ t ≠ "/api/".toList)
    (h' : ∀ d n, Number d n → t ≠ "/api/step/".toList ++ d) (ht : ∀ c ∈ t, isDot c = true) :
    ask resources files mime ⟨.get, t⟩ s =
      match files (filePath resources t) with
      | none => (s, some ⟨404, "text/html", .text "Not found"⟩)
      | some x => (s, some ⟨200, mime (filePath resources t), .file x⟩) := by
  have h1 : reApi.accepts t = false := by
    rw [Bool.eq_false_iff]
    intro hc
    rcases (lang_reApi t).mp ((accepts_iff _ _).mp hc) with hc | hc
    · exact h.1 hc
    · exact h.2 hc
  have h2 : reStep.accepts t = false := by
    rw [Bool.eq_false_iff]
    intro hc
    obtain ⟨d, he, hd⟩ := (lang_numbered _ _).mp ((accepts_iff _ _).mp hc)
    exact h' d _ ⟨hd.1, hd.2, rfl⟩ he
  rw [ask, handle, find_get, h1, h2, (accepts_iff _ _).mpr ((lang_reFile t).mpr ht)]
  simp only [Bool.false_eq_true, if_false, if_true, onFile]
  cases files (filePath resources t) <;> rfl

theorem parts_ne_nil (l : List Char) : parts l ≠ [] := by
  cases l with
  | nil => simp [parts]
  | cons c cs =>
    rw [parts]
    split
    · simp
    · split <;> simp

theorem parts_append (a b : List Char) : parts (a ++ '/' :: b) = parts a ++ parts b := by
  induction a with
  | nil => simp [parts]
  | cons c cs ih =>
    rw [List.cons_append, parts, parts, ih]
    split
    · rfl
    · cases hp : parts cs with
      | nil => exact absurd hp (parts_ne_nil cs)
      | cons p ps => rfl

theorem resolve_append (a b : List Char) (h : ['.', '.'] ∉ parts b) : resolve a <+: resolve (a ++ '/' :: b) := by
  unfold resolve
  rw [parts_append, List.foldl_append]
  generalize (parts a).foldl _ [] = l
  generalize parts b = ps at h
  induction ps generalizing l with
  | nil => exact List.prefix_rfl
  | cons p ps ih =>
    rw [List.foldl_cons]
    have hp : p ≠ ['.', '.'] := fun he => h (by rw [he]; simp)
    have := fun l => ih l fun hm => h (List.mem_cons_of_mem _ hm)
    rw [if_neg hp]
    split
    · exact this l
    · exact (List.prefix_append l [p]).trans (this _)

/-- C78: a target in which no part is `..` is a file in the directory `gui` of the resources. -/
theorem C78_inside {t : List Char} (h : ['.', '.'] ∉ parts t) :
    resolve (resources ++ "/gui".toList) <+: resolve (filePath resources t) := by
  unfold filePath
  split
  · exact resolve_append (resources ++ "/gui".toList) "index.html".toList (by decide) |> (by simpa using ·)
  · exact resolve_append (resources ++ "/gui".toList) t h |> (by simpa using ·)

example : ['.', '.'] ∉ parts "/css/..a/./main.css".toList ∧
    resolve (filePath "/usr/lager".toList "/css/..a/./main.css".toList) =
      ["usr", "lager", "gui", "css", "..a", "main.css"].map String.toList := by decide +kernel

/-- C78: with `..` a client can read any file the program can read. -/
theorem C78_false : ∃ (resources t : List Char) (files : List Char → Option String),
    (∀ p q, resolve p = resolve q → files p = files q) ∧
    (∀ p, resolve (resources ++ "/gui".toList) <+: resolve p → files p = none) ∧
    ask (A := Nat) (M := Nat) resources files (fun _ => "text/plain") ⟨.get, t⟩ (Srv.new 0) =
      (Srv.new 0, some ⟨200, "text/plain", .file "secret"⟩) := by
  refine ⟨"/usr/lager".toList, "/../../../etc/passwd".toList,
    fun p => if resolve p = ["etc", "passwd"].map String.toList then some "secret" else none, ?_, ?_, ?_⟩
  · intro p q h
    simp only [h]
  · intro p h
    refine if_neg fun he => ?_
    rw [he] at h
    revert h
    decide +kernel
  · rw [C77_file _ _ _ _ (by decide +kernel) _ (by decide +kernel)]
    · rw [if_pos (by decide +kernel)]
    · intro d n _ h
      have := congrArg (List.take 10) h
      rw [List.take_append_of_le_length (by decide)] at this
      revert this
      decide

end Verif.Http
