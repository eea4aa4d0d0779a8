import Verif.Http.Props

/-!
The server of the debugger with all its connections, `lager/debug/http_server.hpp:107-231`, and the types of files,
`:383-435`.  One thread runs `io_context_.run()`, so the handlers are called one after another.
-/

namespace Verif.Http

variable {S B : Type}

/-- A connection; the state of the handlers belongs to all of them. -/
structure Conn (B : Type) where
  phase : Phase
  asked : List Req
  sent : List (Res B)

/-- `server`, `lager/debug/http_server.hpp:205-210`. -/
structure Server (S B : Type) where
  state : S
  /-- all connections so far, in the order in which they were accepted -/
  conns : List (Conn B)
  /-- is an `async_accept` in progress? -/
  listening : Bool
  /-- an exception has left the thread -/
  down : Bool
  stopped : Bool
  /-- ghost: the requests on all connections, with the number of the connection, in the order in which they were read -/
  hist : List (Nat × Req)

/-- What happens. -/
inductive SvEv where
  /-- `async_accept` ends with a new connection -/
  | accepted
  | acceptError
  /-- an operation of connection `i` ends -/
  | on (i : Nat) (e : Ev)
  /-- `~server()`: `io_context_.stop()`, and the thread is joined -/
  | stop

/-- A connection as a session of its own. -/
def Conn.session (c : Conn B) (s : S) : Session S B := ⟨c.phase, s, c.asked, c.sent⟩

/-- The request that was read, if any. -/
def Ev.req : Ev → List Req
  | .readOk q => [q]
  | _ => []

/-- The thread runs handlers. -/
def Server.running (x : Server S B) : Bool := !x.down && !x.stopped

/-- `listener::on_accept_`, `lager/debug/http_server.hpp:196-202`, the handlers of sessions, and `~server`, `:224-229`. -/
def Server.step (text : String → B) (eof : Res B → Bool) (rs : List (Route S B)) (x : Server S B) :
    SvEv → Option (Server S B)
  | .accepted =>
    if x.running = true ∧ x.listening = true then
      -- `run()` of the session, then `do_accept_()`
      some { x with conns := x.conns ++ [⟨.reading, [], []⟩], listening := true }
    else none
  | .acceptError => if x.running = true ∧ x.listening = true then some { x with listening := false } else none
  | .on i e =>
    if x.running then
      match x.conns[i]? with
      | none => none
      | some c => ((c.session x.state).step text eof rs e).map fun y =>
        { x with
          state := y.state
          conns := x.conns.set i ⟨y.phase, y.asked, y.sent⟩
          down := decide (y.phase = .ended)
          hist := x.hist ++ e.req.map fun q => (i, q) }
    else none
  | .stop => if x.running then some { x with stopped := true } else none

/-- The constructor, `lager/debug/http_server.hpp:213-222`. -/
def Server.new (s : S) : Server S B := ⟨s, [], true, false, false, []⟩

/-- A sequence of events. -/
def Server.run (text : String → B) (eof : Res B → Bool) (rs : List (Route S B)) :
    Server S B → List SvEv → Option (Server S B)
  | x, [] => some x
  | x, e :: es => match x.step text eof rs e with
    | some x => x.run text eof rs es
    | none => none

/-- The servers a sequence of events leads to, one event after another. -/
inductive Server.Reach (text : String → B) (eof : Res B → Bool) (rs : List (Route S B)) (s : S) :
    List SvEv → Server S B → Prop where
  | new : Reach text eof rs s [] (Server.new s)
  | step {es x y} (e : SvEv) : Reach text eof rs s es x → x.step text eof rs e = some y → Reach text eof rs s (es ++ [e]) y

/-! ### Types of files -/

/-- `path.substr(path.rfind("."))`, or nothing, `lager/debug/http_server.hpp:386-391`. -/
def ext (path : List Char) : List Char :=
  if '.' ∈ path then '.' :: (path.reverse.takeWhile (· != '.')).reverse else []

/-- `beast::iequals`: equal up to the case of letters in ASCII. -/
def iequals (x : List Char) (y : String) : Bool := x.map Char.toLower == y.toList.map Char.toLower

/-- `mime_type_`, `lager/debug/http_server.hpp:383-435`. -/
def mimeType (path : List Char) : String :=
  let ext := ext path
  if iequals ext ".htm" then "text/html"
  else if iequals ext ".html" then "text/html"
  else if iequals ext ".php" then "text/html"
  else if iequals ext ".css" then "text/css"
  else if iequals ext ".txt" then "text/plain"
  else if iequals ext ".js" then "application/javascript"
  else if iequals ext ".json" then "application/json"
  else if iequals ext ".xml" then "application/xml"
  else if iequals ext ".swf" then "application/x-shockwave-flash"
  else if iequals ext ".flv" then "video/x-flv"
  else if iequals ext ".png" then "image/png"
  else if iequals ext ".jpe" then "image/jpeg"
  else if iequals ext ".jpeg" then "image/jpeg"
  else if iequals ext ".jpg" then "image/jpeg"
  else if iequals ext ".gif" then "image/gif"
  else if iequals ext ".bmp" then "image/bmp"
  else if iequals ext ".ico" then "image/vnd.microsoft.icon"
  else if iequals ext ".tiff" then "image/tiff"
  else if iequals ext ".tif" then "image/tiff"
  else if iequals ext ".svg" then "image/svg+xml"
  else if iequals ext ".svgz" then "image/svg+xml"
  else "application/text"

/-! ### Invariant -/

/-- What holds between events; `answers` are all responses so far, in the order of the requests. -/
structure Server.Inv (text : String → B) (rs : List (Route S B)) (s : S) (x : Server S B) : Prop where
  state : x.state = after text rs (x.hist.map (·.2)) s
  asked : ∀ (i : Nat) (c : Conn B), x.conns[i]? = some c → c.asked = (x.hist.filter (·.1 == i)).map (·.2)
  known : ∀ y ∈ x.hist, y.1 < x.conns.length
  sent : ∀ (i : Nat) (c : Conn B), x.conns[i]? = some c →
    c.sent = ((x.hist.zip (answers text rs (x.hist.map (·.2)) s)).filter (·.1.1 == i)).map (·.2)
  all : x.down = false → (answers text rs (x.hist.map (·.2)) s).length = x.hist.length
  ended : ∀ c ∈ x.conns, c.phase = .ended → x.down = true

theorem Server.reach_of_run {text : String → B} {eof : Res B → Bool} {rs : List (Route S B)} {s : S} (es : List SvEv)
    {x : Server S B} (h : (Server.new s).run text eof rs es = some x) : Server.Reach text eof rs s es x := by
  suffices key : ∀ (fs : List SvEv) (y : Server S B), Server.Reach text eof rs s fs y → y.run text eof rs es = some x →
      Server.Reach text eof rs s (fs ++ es) x from key [] _ .new h
  clear h
  induction es with
  | nil =>
    intro fs y r h
    cases h
    rwa [List.append_nil]
  | cons e es ih =>
    intro fs y r h
    rw [Server.run] at h
    cases hy : y.step text eof rs e with
    | none => rw [hy] at h; cases h
    | some z =>
      rw [hy] at h
      have := ih (fs ++ [e]) z (.step e r hy) h
      rwa [List.append_assoc] at this

theorem Server.Reach.inv {text : String → B} {eof : Res B → Bool} {rs : List (Route S B)} {s : S} {es : List SvEv}
    {x : Server S B} (r : Server.Reach text eof rs s es x) : x.Inv text rs s := by
  induction r with
  | new =>
    exact ⟨rfl, by intro i c h; simp [Server.new] at h, (by intro y hy; cases hy), by intro i c h; simp [Server.new] at h,
      fun _ => rfl, by intro c hc; cases hc⟩
  | @step _ x y e _ h k =>
    cases e with
    | stop =>
      simp only [Server.step] at h
      split at h
      · cases h
        exact ⟨k.state, k.asked, k.known, k.sent, k.all, k.ended⟩
      · cases h
    | acceptError =>
      simp only [Server.step] at h
      split at h
      · cases h
        exact ⟨k.state, k.asked, k.known, k.sent, k.all, k.ended⟩
      · cases h
    | accepted =>
      simp only [Server.step] at h
      split at h
      · cases h
        have fresh : ∀ y ∈ x.hist, (y.1 == x.conns.length) = false := by
          intro y hy
          have := k.known y hy
          simp only [beq_eq_false_iff_ne, ne_eq]
          omega
        have old : ∀ (i : Nat) (c : Conn B), (x.conns ++ [(⟨.reading, [], []⟩ : Conn B)])[i]? = some c →
            x.conns[i]? = some c ∨ (i = x.conns.length ∧ c = ⟨.reading, [], []⟩) := by
          intro i c hc
          rcases Nat.lt_or_ge i x.conns.length with hi | hi
          · rw [List.getElem?_append_left hi] at hc; exact .inl hc
          · rw [List.getElem?_append_right hi] at hc
            cases hd : i - x.conns.length with
            | zero =>
              rw [hd] at hc
              exact .inr ⟨by omega, (Option.some.inj hc).symm⟩
            | succ n => rw [hd] at hc; cases hc
        refine ⟨k.state, ?_, ?_, ?_, k.all, ?_⟩
        · intro i c hc
          rcases old i c hc with h1 | ⟨rfl, rfl⟩
          · exact k.asked i c h1
          · show [] = List.map _ (x.hist.filter _)
            rw [List.filter_eq_nil_iff.2 (fun y hy => by rw [fresh y hy]; decide)]
            rfl
        · intro y hy
          have := k.known y hy
          simp only [List.length_append, List.length_cons, List.length_nil]
          omega
        · intro i c hc
          rcases old i c hc with h1 | ⟨rfl, rfl⟩
          · exact k.sent i c h1
          · show [] = List.map _ ((x.hist.zip _).filter _)
            rw [List.filter_eq_nil_iff.2 (fun y hy => by rw [fresh y.1 (List.of_mem_zip hy).1]; decide)]
            rfl
        · intro c hc hp
          rcases List.mem_append.1 hc with h1 | h1
          · exact k.ended c h1 hp
          · rw [List.mem_singleton.1 h1] at hp; cases hp
      · cases h
    | on i e =>
      simp only [Server.step] at h
      split at h
      · rename_i hr
        split at h
        · cases h
        · rename_i c hc
          simp only [Option.map_eq_some_iff] at h
          obtain ⟨y, h1, rfl⟩ := h
          have hd : x.down = false := by
            simp only [Server.running, Bool.and_eq_true, Bool.not_eq_true'] at hr
            exact hr.1
          have hi : i < x.conns.length := (List.getElem?_eq_some_iff.1 hc).1
          have hlen := k.all hd
          have hlen' : (answers text rs (x.hist.map (·.2)) s).length = (x.hist.map (·.2)).length := by
            rw [hlen, List.length_map]
          -- without a request
          have quiet : e.req = [] → y.state = x.state → y.asked = c.asked → y.sent = c.sent → y.phase ≠ .ended →
              Server.Inv text rs s { x with
                state := y.state
                conns := x.conns.set i ⟨y.phase, y.asked, y.sent⟩
                down := decide (y.phase = .ended)
                hist := x.hist ++ e.req.map fun q => (i, q) } := by
            intro e1 e2 e3 e4 e5
            have e6 : decide (y.phase = .ended) = false := by simpa using e5
            rw [e1, e2, e3, e4, e6]
            simp only [List.map_nil, List.append_nil]
            refine ⟨k.state, ?_, ?_, ?_, fun _ => hlen, ?_⟩
            · intro j d hj
              by_cases hij : i = j
              · subst hij
                dsimp only at hj
                rw [List.getElem?_set_self hi] at hj
                cases hj
                exact k.asked i c hc
              · dsimp only at hj
                rw [List.getElem?_set_ne hij] at hj
                exact k.asked j d hj
            · intro z hz
              rw [List.length_set]
              exact k.known z hz
            · intro j d hj
              by_cases hij : i = j
              · subst hij
                dsimp only at hj
                rw [List.getElem?_set_self hi] at hj
                cases hj
                exact k.sent i c hc
              · dsimp only at hj
                rw [List.getElem?_set_ne hij] at hj
                exact k.sent j d hj
            · intro d hm hp
              rcases List.mem_or_eq_of_mem_set hm with h2 | rfl
              · exact absurd (k.ended d h2 hp) (by rw [hd]; decide)
              · exact absurd hp e5
          cases e with
          | readError =>
            simp only [Session.step] at h1
            split at h1
            · cases h1
              exact quiet rfl rfl rfl rfl (by simp)
            · cases h1
          | written =>
            simp only [Session.step] at h1
            split at h1
            · cases h1
              exact quiet rfl rfl rfl rfl (by dsimp only; split <;> simp)
            · cases h1
          | writeError =>
            simp only [Session.step] at h1
            split at h1
            · cases h1
              exact quiet rfl rfl rfl rfl (by simp)
            · cases h1
          | readOk q =>
            simp only [Session.step] at h1
            split at h1
            · have ha := answers_append text rs (x.hist.map (·.2)) q s hlen'
              have hst : (c.session x.state).state = after text rs (x.hist.map (·.2)) s := k.state
              rw [hst] at h1
              have hafter : after text rs ((x.hist ++ [(i, q)]).map (·.2)) s =
                  (handle text rs q (after text rs (x.hist.map (·.2)) s)).1 := by
                simp [after, List.foldl_append]
              have hasked : ∀ (j : Nat) (d : Conn B) (p : Phase) (l : List (Res B)),
                  (x.conns.set i ⟨p, c.asked ++ [q], l⟩)[j]? = some d →
                  d.asked = ((x.hist ++ [(i, q)]).filter (·.1 == j)).map (·.2) := by
                intro j d p l hj
                rw [List.filter_append, List.map_append]
                by_cases hij : i = j
                · subst hij
                  rw [List.getElem?_set_self hi] at hj
                  cases hj
                  simp [k.asked i c hc]
                · rw [List.getElem?_set_ne hij] at hj
                  have hb : (i == j) = false := by simpa using hij
                  simp [k.asked j d hj, hb]
              have hknown : ∀ (d : Conn B), ∀ z ∈ x.hist ++ [(i, q)], z.1 < (x.conns.set i d).length := by
                intro d z hz
                rw [List.length_set]
                rcases List.mem_append.1 hz with h2 | h2
                · exact k.known z h2
                · rw [List.mem_singleton.1 h2]; exact hi
              rcases hh : handle text rs q (after text rs (x.hist.map (·.2)) s) with ⟨s', _ | r⟩
              · -- the exception
                rw [hh] at h1 ha hafter
                cases h1
                have ha' : answers text rs ((x.hist ++ [(i, q)]).map (·.2)) s = answers text rs (x.hist.map (·.2)) s := by
                  rw [List.map_append]
                  simpa using ha
                have hz : (x.hist ++ [(i, q)]).zip (answers text rs (x.hist.map (·.2)) s) =
                    x.hist.zip (answers text rs (x.hist.map (·.2)) s) := by
                  have := List.zip_append (l₁ := x.hist) (r₁ := [(i, q)]) (l₂ := answers text rs (x.hist.map (·.2)) s)
                    (r₂ := []) hlen.symm
                  simpa using this
                refine ⟨hafter.symm, fun j d hj => hasked j d _ _ hj, hknown _, ?_, ?_, ?_⟩
                · intro j d hj
                  show d.sent = (((x.hist ++ [(i, q)]).zip (answers text rs ((x.hist ++ [(i, q)]).map (·.2)) s)).filter _).map _
                  rw [ha', hz]
                  by_cases hij : i = j
                  · subst hij
                    have hj' : (x.conns.set i ⟨.ended, c.asked ++ [q], c.sent⟩)[i]? = some d := hj
                    rw [List.getElem?_set_self hi] at hj'
                    cases hj'
                    exact k.sent i c hc
                  · have hj' : (x.conns.set i ⟨.ended, c.asked ++ [q], c.sent⟩)[j]? = some d := hj
                    rw [List.getElem?_set_ne hij] at hj'
                    exact k.sent j d hj'
                · intro hf
                  simp at hf
                · intro d _ _
                  simp
              · rw [hh] at h1 ha hafter
                cases h1
                have ha' : answers text rs ((x.hist ++ [(i, q)]).map (·.2)) s =
                    answers text rs (x.hist.map (·.2)) s ++ [r] := by
                  rw [List.map_append]
                  simpa using ha
                have hz : (x.hist ++ [(i, q)]).zip (answers text rs (x.hist.map (·.2)) s ++ [r]) =
                    x.hist.zip (answers text rs (x.hist.map (·.2)) s) ++ [((i, q), r)] := by
                  rw [List.zip_append hlen.symm]
                  rfl
                refine ⟨hafter.symm, fun j d hj => hasked j d _ _ hj, hknown _, ?_, ?_, ?_⟩
                · intro j d hj
                  show d.sent = (((x.hist ++ [(i, q)]).zip (answers text rs ((x.hist ++ [(i, q)]).map (·.2)) s)).filter _).map _
                  rw [ha', hz, List.filter_append, List.map_append]
                  have hj' : (x.conns.set i ⟨.writing (eof r), c.asked ++ [q], c.sent ++ [r]⟩)[j]? = some d := hj
                  by_cases hij : i = j
                  · subst hij
                    rw [List.getElem?_set_self hi] at hj'
                    cases hj'
                    simp [k.sent i c hc]
                  · rw [List.getElem?_set_ne hij] at hj'
                    have hb : (i == j) = false := by simpa using hij
                    simp [k.sent j d hj', hb]
                · intro _
                  show (answers text rs ((x.hist ++ [(i, q)]).map (·.2)) s).length = (x.hist ++ [(i, q)]).length
                  rw [ha']
                  simp [hlen]
                · intro d hm hp
                  rcases List.mem_or_eq_of_mem_set hm with h2 | rfl
                  · exact absurd (k.ended d h2 hp) (by rw [hd]; decide)
                  · cases hp
            · cases h1
      · cases h

end Verif.Http
