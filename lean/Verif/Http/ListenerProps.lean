import Verif.Http.Listener

/-!
C122: the server of the debugger with many connections.
-/

namespace Verif.Http

variable {S B A M : Type}

/-- Specification: the requests that come in, with the connections they come from. -/
def requests : List SvEv → List (Nat × Req)
  | [] => []
  | .on i (.readOk q) :: es => (i, q) :: requests es
  | _ :: es => requests es

theorem requests_append (es : List SvEv) (e : SvEv) : requests (es ++ [e]) = requests es ++ requests [e] := by
  induction es with
  | nil => rfl
  | cons f es ih =>
    rw [List.cons_append]
    cases f with
    | on i g => cases g <;> simp [requests, ih]
    | _ => simpa [requests] using ih

/-- What an event of a connection does. -/
theorem Server.step_on {text : String → B} {eof : Res B → Bool} {rs : List (Route S B)} {x y : Server S B} {i : Nat} {e : Ev}
    (h : x.step text eof rs (.on i e) = some y) :
    x.running = true ∧ ∃ c z, x.conns[i]? = some c ∧ (c.session x.state).step text eof rs e = some z ∧
      y = { x with state := z.state, conns := x.conns.set i ⟨z.phase, z.asked, z.sent⟩,
                   down := decide (z.phase = .ended), hist := x.hist ++ e.req.map fun q => (i, q) } := by
  simp only [Server.step] at h
  split at h
  · rename_i hr
    split at h
    · cases h
    · rename_i c hc
      simp only [Option.map_eq_some_iff] at h
      obtain ⟨z, h1, rfl⟩ := h
      exact ⟨hr, c, z, hc, h1, rfl⟩
  · cases h

theorem Server.Reach.hist {text : String → B} {eof : Res B → Bool} {rs : List (Route S B)} {s : S} {es : List SvEv}
    {x : Server S B} (r : Server.Reach text eof rs s es x) : x.hist = requests es := by
  induction r with
  | new => rfl
  | step e _ h k =>
    rw [requests_append]
    cases e with
    | on i e =>
      obtain ⟨_, c, z, _, _, rfl⟩ := Server.step_on h
      dsimp only
      rw [k]
      cases e <;> rfl
    | _ =>
      simp only [Server.step] at h
      split at h
      · cases h
        simpa [requests] using k
      · cases h

/-- C122: the requests of all connections are handled one at a time, in the order in which they were read, each seeing the
state the one before left.  Each connection is sent the responses to its own requests, in order, each once. -/
theorem C122_answers (text : String → B) (eof : Res B → Bool) (rs : List (Route S B)) (s : S) (es : List SvEv)
    {x : Server S B} (h : (Server.new s).run text eof rs es = some x) :
    x.state = after text rs ((requests es).map (·.2)) s ∧
    ∀ (i : Nat) (c : Conn B), x.conns[i]? = some c →
      c.asked = ((requests es).filter (·.1 == i)).map (·.2) ∧
      c.sent = (((requests es).zip (answers text rs ((requests es).map (·.2)) s)).filter (·.1.1 == i)).map (·.2) ∧
      (x.down = false → c.sent.length = c.asked.length) := by
  have r := Server.reach_of_run es h
  have k := r.inv
  have hh := r.hist
  refine ⟨by rw [k.state, hh], fun i c hc => ⟨by rw [k.asked i c hc, hh], by rw [k.sent i c hc, hh], fun hd => ?_⟩⟩
  rw [k.asked i c hc, k.sent i c hc, List.length_map, List.length_map]
  have hl := k.all hd
  generalize answers text rs (x.hist.map (·.2)) s = l at hl
  generalize x.hist = g at hl
  induction g generalizing l with
  | nil => rfl
  | cons a g ih =>
    cases l with
    | nil => cases hl
    | cons b l =>
      have := ih l (Nat.succ.inj hl)
      rw [List.zip_cons_cons, List.filter_cons, List.filter_cons]
      split <;> simpa using this

/-- Two connections, a failed `accept`, and a counter: the requests of both are counted together. -/
def exEvents : List SvEv :=
  [.accepted, .accepted, .on 1 (.readOk ⟨.get, ['1']⟩), .on 0 (.readOk ⟨.get, ['x']⟩), .on 0 .writeError, .acceptError,
   .on 1 .written, .on 1 (.readOk ⟨.get, ['2']⟩)]

/-- What there is to see. -/
def Server.look (x : Server Nat String) : Nat × List (List (Nat × String)) × Bool × Bool :=
  (x.state, x.conns.map fun c => c.sent.map fun r => (r.status, r.body), x.listening, x.running)

example : ((Server.new 0).run id (fun _ => false) exRoutes exEvents).map (·.look) =
    some (2, [[(200, "first")], [(200, "number"), (200, "number")]], false, true) := by decide +kernel

/-- C122: what happens on one connection changes nothing about another, nor about accepting new ones; and if nothing was
asked it does not change the state.  Whatever could happen next on the other connection still can, unless the server is
ended by an exception. -/
theorem C122_isolated (text : String → B) (eof : Res B → Bool) (rs : List (Route S B)) {x y : Server S B} {i : Nat} {e : Ev}
    (h : x.step text eof rs (.on i e) = some y) :
    y.listening = x.listening ∧ y.conns.length = x.conns.length ∧ (∀ j, j ≠ i → y.conns[j]? = x.conns[j]?) ∧
    ((∀ q, e ≠ .readOk q) → y.state = x.state ∧ y.running = true) ∧
    (∀ j f, j ≠ i → y.down = false → (x.step text eof rs (.on j f)).isSome → (y.step text eof rs (.on j f)).isSome) := by
  obtain ⟨hr, c, z, hc, hz, rfl⟩ := Server.step_on h
  have hs : x.stopped = false := by
    simp only [Server.running, Bool.and_eq_true, Bool.not_eq_true'] at hr
    exact hr.2
  refine ⟨rfl, by simp, fun j hj => ?_, fun hq => ?_, fun j f hj hd hf => ?_⟩
  · dsimp only
    rw [List.getElem?_set_ne (Ne.symm hj)]
  · cases e with
    | readOk q => exact absurd rfl (hq q)
    | readError =>
      simp only [Session.step] at hz
      split at hz
      · cases hz; exact ⟨rfl, by simp [Server.running, hs]⟩
      · cases hz
    | written =>
      simp only [Session.step] at hz
      split at hz
      · cases hz
        refine ⟨rfl, ?_⟩
        simp only [Server.running, hs]
        split <;> rfl
      · cases hz
    | writeError =>
      simp only [Session.step] at hz
      split at hz
      · cases hz; exact ⟨rfl, by simp [Server.running, hs]⟩
      · cases hz
  · obtain ⟨w, hw⟩ := Option.isSome_iff_exists.1 hf
    obtain ⟨_, d, v, hd1, hv, _⟩ := Server.step_on hw
    dsimp only at hd
    simp only [Server.step, Server.running, hd, hs, Bool.not_false, Bool.and_self, if_true]
    rw [List.getElem?_set_ne (Ne.symm hj), hd1]
    simp only [Option.isSome_map]
    cases f with
    | readOk q =>
      simp only [Session.step] at hv ⊢
      split at hv
      · rename_i hp
        have hp' : (d.session z.state).phase = .reading := hp
        rw [if_pos hp']
        split <;> rfl
      · cases hv
    | readError =>
      simp only [Session.step] at hv ⊢
      split at hv
      · rename_i hp
        have hp' : (d.session z.state).phase = .reading := hp
        rw [if_pos hp']
        rfl
      · cases hv
    | written =>
      simp only [Session.step] at hv ⊢
      split at hv
      · rename_i b hp
        have hp' : (d.session z.state).phase = .writing b := hp
        rw [hp']
        rfl
      · cases hv
    | writeError =>
      simp only [Session.step] at hv ⊢
      split at hv
      · rename_i b hp
        have hp' : (d.session z.state).phase = .writing b := hp
        rw [hp']
        rfl
      · cases hv

example : (((Server.new 0).run id (fun _ => false) exRoutes (exEvents.take 4)).bind fun x =>
    (x.step id (fun _ => false) exRoutes (.on 0 .writeError)).bind fun y =>
      (y.step id (fun _ => false) exRoutes (.on 1 .written)).map fun z => (z.state, z.conns.map (·.phase))) =
    some (1, [.closed, .reading]) := by decide +kernel

theorem Server.Reach.listening {text : String → B} {eof : Res B → Bool} {rs : List (Route S B)} {s : S} {es : List SvEv}
    {x : Server S B} (r : Server.Reach text eof rs s es x) (hn : SvEv.acceptError ∉ es) : x.listening = true := by
  induction r with
  | new => rfl
  | step e _ h k =>
    have hk := k fun hm => hn (List.mem_append_left _ hm)
    cases e with
    | on i e =>
      obtain ⟨_, c, z, _, _, rfl⟩ := Server.step_on h
      exact hk
    | acceptError => exact absurd (List.mem_append_right _ (List.mem_singleton.2 rfl)) hn
    | accepted =>
      simp only [Server.step] at h
      split at h
      · cases h; rfl
      · cases h
    | stop =>
      simp only [Server.step] at h
      split at h
      · cases h; exact hk
      · cases h

/-- C122: as long as no `accept` failed and the server runs, one more client can connect, whatever the others do; its
connection is a new one, and the others stay as they are. -/
theorem C122_accepts (text : String → B) (eof : Res B → Bool) (rs : List (Route S B)) (s : S) (es : List SvEv)
    {x : Server S B} (h : (Server.new s).run text eof rs es = some x) (hn : SvEv.acceptError ∉ es)
    (hr : x.running = true) :
    ∃ y, x.step text eof rs .accepted = some y ∧ y.conns = x.conns ++ [⟨.reading, [], []⟩] ∧ y.state = x.state ∧
      y.running = true := by
  have hl := (Server.reach_of_run es h).listening hn
  refine ⟨{ x with conns := x.conns ++ [⟨.reading, [], []⟩], listening := true }, ?_, rfl, rfl, hr⟩
  simp only [Server.step]
  rw [if_pos ⟨hr, hl⟩]

example : SvEv.acceptError ∉ exEvents.take 5 ∧
    (((Server.new 0).run id (fun _ => false) exRoutes (exEvents.take 5)).map (·.running)) = some true :=
  ⟨by simp [exEvents], by decide +kernel⟩

/-- C122: one failed `accept` is enough that nobody can connect any more, though the server goes on with the connections
it has. -/
theorem C122_accept_error_false (text : String → B) (eof : Res B → Bool) (rs : List (Route S B)) {x y : Server S B}
    (h : x.step text eof rs .acceptError = some y) :
    y.running = true ∧ y.conns = x.conns ∧
    ∀ es z, y.run text eof rs es = some z → z.conns.length = x.conns.length ∧ z.step text eof rs .accepted = none := by
  simp only [Server.step] at h
  split at h
  · rename_i hr
    cases h
    refine ⟨hr.1, rfl, ?_⟩
    intro es z hz
    suffices key : ∀ (y : Server S B), y.listening = false → y.run text eof rs es = some z →
        z.conns.length = y.conns.length ∧ z.step text eof rs .accepted = none from
      key { x with listening := false } rfl hz
    clear hz
    induction es with
    | nil =>
      intro y hl hz
      cases hz
      refine ⟨rfl, ?_⟩
      simp only [Server.step]
      rw [if_neg (by rw [hl]; simp)]
    | cons e es ih =>
      intro y hl hz
      rw [Server.run] at hz
      cases hy : y.step text eof rs e with
      | none => rw [hy] at hz; cases hz
      | some w =>
        rw [hy] at hz
        suffices hw : w.listening = false ∧ w.conns.length = y.conns.length by
          have := ih w hw.1 hz
          rw [hw.2] at this
          exact this
        cases e with
        | on i e =>
          obtain ⟨_, c, v, _, _, rfl⟩ := Server.step_on hy
          exact ⟨hl, by simp⟩
        | accepted =>
          simp only [Server.step] at hy
          rw [if_neg (by rw [hl]; simp)] at hy
          cases hy
        | acceptError =>
          simp only [Server.step] at hy
          rw [if_neg (by rw [hl]; simp)] at hy
          cases hy
        | stop =>
          simp only [Server.step] at hy
          split at hy
          · cases hy; exact ⟨hl, rfl⟩
          · cases hy
  · cases h

example : (((Server.new 0).run id (fun _ => false) exRoutes exEvents).map fun x =>
    (x.conns.length, x.running, (x.step id (fun _ => false) exRoutes .accepted).isSome,
      (x.step id (fun _ => false) exRoutes (.on 1 .written)).isSome)) = some (2, true, false, true) := by decide +kernel

/-- C122: after the destructor of the server, or after an exception left its thread, nothing happens any more. -/
theorem C122_over (text : String → B) (eof : Res B → Bool) (rs : List (Route S B)) {x y : Server S B}
    (h : x.step text eof rs .stop = some y ∨ x.down = true ∧ y = x) : ∀ e, y.step text eof rs e = none := by
  have hy : y.running = false := by
    rcases h with h | ⟨hd, rfl⟩
    · simp only [Server.step] at h
      split at h
      · cases h; simp [Server.running]
      · cases h
    · simp [Server.running, hd]
  intro e
  cases e <;> simp [Server.step, hy]

/-- C122: the server can be stopped at any time while it runs. -/
theorem C122_stop (text : String → B) (eof : Res B → Bool) (rs : List (Route S B)) {x : Server S B}
    (h : x.running = true) : ∃ y, x.step text eof rs .stop = some y ∧ y.conns = x.conns ∧ y.state = x.state :=
  ⟨{ x with stopped := true }, by simp [Server.step, h], rfl, rfl⟩

example : (((Server.new 0).run id (fun _ => false) (exRoutes.drop 2)
      [.accepted, .on 0 (.readOk ⟨.get, ['x']⟩)]).map fun x => (x.down, x.running)) = some (true, false) ∧
    (((Server.new 0).run id (fun _ => false) exRoutes exEvents).map (·.running)) = some true := by decide +kernel

theorem Server.Reach.closed {text : String → B} {eof : Res B → Bool} {rs : List (Route S B)} {s : S} {es : List SvEv}
    {x : Server S B} (he : ∀ r, eof r = false) (r : Server.Reach text eof rs s es x) :
    ∀ (i : Nat) (c : Conn B), x.conns[i]? = some c → c.phase ≠ .writing true ∧
      (c.phase = .closed → SvEv.on i .readError ∈ es ∨ SvEv.on i .writeError ∈ es) := by
  induction r with
  | new => intro i c hc; simp [Server.new] at hc
  | @step es x y e _ h k =>
    have more : ∀ {f : SvEv}, f ∈ es → f ∈ es ++ [e] := fun hf => List.mem_append_left _ hf
    have more' : ∀ {i : Nat} {c : Conn B}, x.conns[i]? = some c → c.phase ≠ .writing true ∧
        (c.phase = .closed → SvEv.on i .readError ∈ es ++ [e] ∨ SvEv.on i .writeError ∈ es ++ [e]) := fun hc =>
      ⟨(k _ _ hc).1, fun hp => ((k _ _ hc).2 hp).imp more more⟩
    intro i c hc
    cases e with
    | accepted =>
      simp only [Server.step] at h
      split at h
      · cases h
        rcases Nat.lt_or_ge i x.conns.length with hi | hi
        · dsimp only at hc
          rw [List.getElem?_append_left hi] at hc
          exact more' hc
        · dsimp only at hc
          have := List.mem_of_getElem? hc
          rw [List.getElem?_append_right hi] at hc
          have := List.mem_singleton.1 (List.mem_of_getElem? hc)
          subst this
          exact ⟨by simp, by simp⟩
      · cases h
    | acceptError =>
      simp only [Server.step] at h
      split at h
      · cases h; exact more' hc
      · cases h
    | stop =>
      simp only [Server.step] at h
      split at h
      · cases h; exact more' hc
      · cases h
    | on j e =>
      obtain ⟨_, d, z, hd, hz, rfl⟩ := Server.step_on h
      have hj : j < x.conns.length := (List.getElem?_eq_some_iff.1 hd).1
      by_cases hij : j = i
      · subst hij
        dsimp only at hc
        rw [List.getElem?_set_self hj] at hc
        cases hc
        dsimp only
        cases e with
        | readOk q =>
          simp only [Session.step] at hz
          split at hz
          · rcases hq : handle text rs q (d.session x.state).state with ⟨s', _ | r⟩
            · rw [hq] at hz; cases hz; exact ⟨by simp, by simp⟩
            · rw [hq] at hz; cases hz; exact ⟨by simp [he], by simp⟩
          · cases hz
        | readError => 
          simp only [Session.step] at hz
          split at hz
          · cases hz; exact ⟨by simp, fun _ => .inl (by simp)⟩
          · cases hz
        | writeError =>
          simp only [Session.step] at hz
          split at hz
          · cases hz; exact ⟨by simp, fun _ => .inr (by simp)⟩
          · cases hz
        | written =>
          simp only [Session.step] at hz
          split at hz
          · rename_i b hp
            have hb : b = false := by
              cases b with
              | false => rfl
              | true => exact absurd hp (k _ _ hd).1
            cases hz
            subst hb
            exact ⟨by simp, by simp⟩
          · cases hz
      · dsimp only at hc
        rw [List.getElem?_set_ne hij] at hc
        exact more' hc

/-- C122: responses that say how long they are, as all responses of the server do, never make it close a connection: it is
closed only after reading from it or writing to it failed. -/
theorem C122_keeps (text : String → B) (eof : Res B → Bool) (rs : List (Route S B)) (s : S) (es : List SvEv)
    {x : Server S B} (he : ∀ r, eof r = false) (h : (Server.new s).run text eof rs es = some x) {i : Nat} {c : Conn B}
    (hc : x.conns[i]? = some c) (hp : c.phase = .closed) : SvEv.on i .readError ∈ es ∨ SvEv.on i .writeError ∈ es :=
  ((Server.reach_of_run es h).closed he i c hc).2 hp

example : (((Server.new 0).run id (fun _ => false) exRoutes exEvents).map fun x => x.conns.map (·.phase)) =
    some [.closed, .writing false] := by decide +kernel

/-- The handlers of the debugger throw nothing but `std::exception`s. -/
theorem handle_routes (resources : List Char) (files : List Char → Option String) (mime : List Char → String) (q : Req)
    (s : Srv A M) : ∃ r, (handle Body.text (routes resources files mime) q s).2 = some r := by
  rw [handle]
  split
  · rename_i r hr
    have hm := List.mem_of_find?_eq_some hr
    simp only [routes, route, List.foldl_cons, List.foldl_nil, List.nil_append, List.cons_append, List.mem_cons,
      List.not_mem_nil, or_false] at hm
    rcases hm with rfl | rfl | rfl | rfl | rfl | rfl | rfl | rfl <;>
      simp only [onApi, onStep, onGoto, onCommand, onFile, respond]
    · exact ⟨_, rfl⟩
    · cases stoul (lastPart q.target) with
      | none => exact ⟨_, rfl⟩
      | some n =>
        dsimp only
        cases s.model.lookup n with
        | none => exact ⟨_, rfl⟩
        | some p => exact ⟨_, rfl⟩
    · cases stoul (lastPart q.target) with
      | none => exact ⟨_, rfl⟩
      | some n => exact ⟨_, rfl⟩
    · exact ⟨_, rfl⟩
    · exact ⟨_, rfl⟩
    · exact ⟨_, rfl⟩
    · exact ⟨_, rfl⟩
    · cases files (filePath resources q.target) with
      | none => exact ⟨_, rfl⟩
      | some n => exact ⟨_, rfl⟩
  · exact ⟨_, rfl⟩

/-- C122: no request ends the server of the debugger: it runs until it is destroyed, and every request that was read is
answered on its connection. -/
theorem C122_debugger (eof : Res (Body A M) → Bool) (resources : List Char) (files : List Char → Option String)
    (mime : List Char → String) (s : Srv A M) (es : List SvEv) {x : Server (Srv A M) (Body A M)}
    (h : (Server.new s).run Body.text eof (routes resources files mime) es = some x) :
    x.down = false ∧ (SvEv.stop ∉ es → x.running = true) ∧ ∀ c ∈ x.conns, c.sent.length = c.asked.length := by
  have hd : ∀ {es} {x : Server (Srv A M) (Body A M)},
      Server.Reach Body.text eof (routes resources files mime) s es x →
      x.down = false ∧ (SvEv.stop ∉ es → x.stopped = false) := by
    intro es x r
    induction r with
    | new => exact ⟨rfl, fun _ => rfl⟩
    | @step es x y e _ h k =>
      have hk : SvEv.stop ∉ es ++ [e] → x.stopped = false := fun hn => k.2 fun hm => hn (List.mem_append_left _ hm)
      cases e with
      | stop =>
        simp only [Server.step] at h
        split at h
        · cases h; exact ⟨k.1, fun hn => absurd (List.mem_append_right _ (List.mem_singleton.2 rfl)) hn⟩
        · cases h
      | accepted =>
        simp only [Server.step] at h
        split at h
        · cases h; exact ⟨k.1, hk⟩
        · cases h
      | acceptError =>
        simp only [Server.step] at h
        split at h
        · cases h; exact ⟨k.1, hk⟩
        · cases h
      | on i e =>
        obtain ⟨_, c, z, hc, hz, rfl⟩ := Server.step_on h
        refine ⟨?_, hk⟩
        dsimp only
        rw [decide_eq_false_iff_not]
        cases e with
        | readOk q =>
          simp only [Session.step] at hz
          split at hz
          · obtain ⟨r, hr⟩ := handle_routes resources files mime q (c.session (B := Body A M) x.state).state
            rcases hq : handle Body.text (routes resources files mime) q (c.session (B := Body A M) x.state).state with ⟨s', o⟩
            rw [hq] at hz hr
            dsimp only at hr
            subst hr
            cases hz
            simp
          · cases hz
        | readError =>
          simp only [Session.step] at hz
          split at hz
          · cases hz; simp
          · cases hz
        | written =>
          simp only [Session.step] at hz
          split at hz
          · cases hz
            dsimp only
            split <;> simp
          · cases hz
        | writeError =>
          simp only [Session.step] at hz
          split at hz
          · cases hz; simp
          · cases hz
  have k := hd (Server.reach_of_run es h)
  refine ⟨k.1, fun hn => by simp [Server.running, k.1, k.2 hn], fun c hc => ?_⟩
  obtain ⟨i, hi⟩ := List.getElem?_of_mem hc
  exact ((C122_answers _ _ _ _ _ h).2 i c hi).2.2 k.1

example : (((Server.new (Srv.new (A := Nat) 7)).run Body.text (fun _ => false) (routes [] (fun _ => none) mimeType)
      [.accepted, .accepted, .on 0 (.readOk ⟨.get, "/api/step/99999999999999999999".toList⟩),
       .on 1 (.readOk ⟨.post, "/api/undo".toList⟩)]).map fun x =>
    (x.conns.map fun c => c.sent.map (·.status), x.state.dispatched.length)) = some ([[500], [200]], 1) := by
  decide +kernel

/-! ### Types of files -/

/-- Specification: the types, by extension. -/
def types : List (String × String) :=
  [("htm", "text/html"), ("html", "text/html"), ("php", "text/html"), ("css", "text/css"), ("txt", "text/plain"),
   ("js", "application/javascript"), ("json", "application/json"), ("xml", "application/xml"),
   ("swf", "application/x-shockwave-flash"), ("flv", "video/x-flv"), ("png", "image/png"), ("jpe", "image/jpeg"),
   ("jpeg", "image/jpeg"), ("jpg", "image/jpeg"), ("gif", "image/gif"), ("bmp", "image/bmp"),
   ("ico", "image/vnd.microsoft.icon"), ("tiff", "image/tiff"), ("tif", "image/tiff"), ("svg", "image/svg+xml"),
   ("svgz", "image/svg+xml")]

/-- Specification: the type for an extension in lower case, with a table. -/
def typeIn (types : List (String × String)) (e : List Char) : String :=
  match types.find? (fun t => t.1.toList == e) with
  | some t => t.2
  | none => "application/text"

theorem typeIn_cons (t : String × String) (ts : List (String × String)) (e : List Char) (r : String) (h : typeIn ts e = r) :
    typeIn (t :: ts) e = if (t.1.toList == e) = true then t.2 else r := by
  rw [typeIn, List.find?_cons]
  cases (t.1.toList == e) with
  | true => rfl
  | false => exact h

theorem iequals_dot (e : List Char) (x y : String) (h : y.toList.map Char.toLower = '.' :: x.toList) :
    iequals ('.' :: e) y = (x.toList == e.map Char.toLower) := by
  rw [iequals, h, Bool.eq_iff_iff, List.map_cons]
  simp only [beq_iff_eq]
  rw [show Char.toLower '.' = '.' by decide, List.cons.injEq]
  exact ⟨fun h => h.2.symm, fun h => ⟨rfl, h.symm⟩⟩

theorem takeWhile_append_stop {α : Type} (p : α → Bool) (l r : List α) (a : α) (h : ∀ x ∈ l, p x = true) (ha : p a = false) :
    (l ++ a :: r).takeWhile p = l := by
  induction l with
  | nil => simp [ha]
  | cons x l ih =>
    rw [List.cons_append, List.takeWhile_cons, h x (List.mem_cons_self ..)]
    simp [ih fun y hy => h y (List.mem_cons_of_mem _ hy)]

theorem ext_dot (p e : List Char) (he : '.' ∉ e) : ext (p ++ '.' :: e) = '.' :: e := by
  have h : (p ++ '.' :: e).reverse = e.reverse ++ '.' :: p.reverse := by simp
  rw [ext, if_pos (by simp), h, takeWhile_append_stop _ _ _ _ ?_ (by decide), List.reverse_reverse]
  intro x hx
  have hx' : x ∈ e := List.mem_reverse.1 hx
  simp only [bne_iff_ne, ne_eq]
  intro hd
  exact he (hd ▸ hx')

/-- C122: the type of a file depends on what follows the last dot of its path, without regard to case, and on nothing else. -/
theorem C122_type (p e : List Char) (he : '.' ∉ e) : mimeType (p ++ '.' :: e) = typeIn types (e.map Char.toLower) := by
  simp only [mimeType, ext_dot p e he]
  rw [iequals_dot e "htm" ".htm" (by decide +kernel),
    iequals_dot e "html" ".html" (by decide +kernel),
    iequals_dot e "php" ".php" (by decide +kernel),
    iequals_dot e "css" ".css" (by decide +kernel),
    iequals_dot e "txt" ".txt" (by decide +kernel),
    iequals_dot e "js" ".js" (by decide +kernel),
    iequals_dot e "json" ".json" (by decide +kernel),
    iequals_dot e "xml" ".xml" (by decide +kernel),
    iequals_dot e "swf" ".swf" (by decide +kernel),
    iequals_dot e "flv" ".flv" (by decide +kernel),
    iequals_dot e "png" ".png" (by decide +kernel),
    iequals_dot e "jpe" ".jpe" (by decide +kernel),
    iequals_dot e "jpeg" ".jpeg" (by decide +kernel),
    iequals_dot e "jpg" ".jpg" (by decide +kernel),
    iequals_dot e "gif" ".gif" (by decide +kernel),
    iequals_dot e "bmp" ".bmp" (by decide +kernel),
    iequals_dot e "ico" ".ico" (by decide +kernel),
    iequals_dot e "tiff" ".tiff" (by decide +kernel),
    iequals_dot e "tif" ".tif" (by decide +kernel),
    iequals_dot e "svg" ".svg" (by decide +kernel),
    iequals_dot e "svgz" ".svgz" (by decide +kernel)]
  symm
  unfold types
  repeat (refine typeIn_cons _ _ _ _ ?_)
  rfl

/-- C122: a file whose path has no dot has the type `application/text`. -/
theorem C122_no_type (p : List Char) (hp : '.' ∉ p) : mimeType p = "application/text" := by
  simp only [mimeType, ext, if_neg hp]
  rfl

example : mimeType "/gui/Index.HTML".toList = "text/html" ∧ mimeType "/a.b/c".toList = "application/text" ∧
    mimeType "/gui/README".toList = "application/text" ∧ mimeType "/x.tar.js".toList = "application/javascript" := by
  decide +kernel

end Verif.Http
