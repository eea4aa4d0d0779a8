import Verif.Http.Regex
import Verif.Debugger.Model

/-
Model of the web server of the debugger, `lager/debug/http_server.hpp`.
-/

namespace Verif.Http

/-- `beast::http::verb`, as far as routes use it, `lager/debug/http_server.hpp:265-339`. -/
inductive Verb where
  | get
  | post
  | other
  deriving DecidableEq

/-- A request, as far as it is looked at. -/
structure Req where
  method : Verb
  target : List Char
  deriving DecidableEq

/-- A response; `B` are bodies. -/
structure Res (B : Type) where
  status : Nat
  type : String
  body : B
  deriving DecidableEq

/-- What a call of a handler ends with: a response, an exception derived from `std::exception`, another exception. -/
inductive Out (R : Type) where
  | res (r : R)
  | std (what : String)
  | other
  deriving DecidableEq

/-- `router::resource_t`, `lager/debug/http_server.hpp:54-59`; handlers may change a state `S`. -/
structure Route (S B : Type) where
  method : Verb
  target : Re
  handler : Req → S → S × Out (Res B)

variable {S B : Type}

/-- `router::route`, `lager/debug/http_server.hpp:64-70`. -/
def route (rs : List (Route S B)) (r : Route S B) : List (Route S B) := rs ++ [r]

/-- The condition of `std::find_if`, `lager/debug/http_server.hpp:76-81`. -/
def Route.fits (r : Route S B) (q : Req) : Bool := r.method == q.method && r.target.accepts q.target

/-- `router::handle_request`, `lager/debug/http_server.hpp:72-92`; `text` makes a body from a text.  `none` stands for an
exception that leaves the function: the thread of the server ends, and with it the program
(`lager/debug/http_server.hpp:221`). -/
def handle (text : String → B) (rs : List (Route S B)) (q : Req) (s : S) : S × Option (Res B) :=
  match rs.find? (·.fits q) with
  | some r => match r.handler q s with
    | (s, .res x) => (s, some x)
    | (s, .std what) => (s, some ⟨500, "text/html", text what⟩)
    | (s, .other) => (s, none)
  | none => (s, some ⟨404, "text/html", text "Not found"⟩)

/-- What a session is waiting for. -/
inductive Phase where
  | reading
  | writing (close : Bool)
  | closed
  | ended
  deriving DecidableEq

/-- A session, with the state of the handlers, and all requests read and responses sent so far. -/
structure Session (S B : Type) where
  phase : Phase
  state : S
  asked : List Req
  sent : List (Res B)

/-- Ends of asynchronous operations. -/
inductive Ev where
  | readOk (q : Req)
  | readError
  | written
  | writeError
  deriving DecidableEq

/-- `session::on_read_` and `session::on_write_`, with `do_read_` and `do_close_`, `lager/debug/http_server.hpp:124-164`.
`eof` is `need_eof` of a response.  An operation that was not begun does not end: `none`. -/
def Session.step (text : String → B) (eof : Res B → Bool) (rs : List (Route S B)) (x : Session S B) :
    Ev → Option (Session S B)
  | .readOk q =>
    if x.phase = .reading then
      match handle text rs q x.state with
      | (s, some r) => some ⟨.writing (eof r), s, x.asked ++ [q], x.sent ++ [r]⟩
      | (s, none) => some ⟨.ended, s, x.asked ++ [q], x.sent⟩
    else none
  | .readError => if x.phase = .reading then some { x with phase := .closed } else none
  | .written =>
    match x.phase with
    | .writing close => some { x with phase := if close then .closed else .reading }
    | _ => none
  | .writeError =>
    match x.phase with
    | .writing _ => some { x with phase := .closed }
    | _ => none

/-- A session that was just begun, `session::run`, `lager/debug/http_server.hpp:122`. -/
def Session.new (s : S) : Session S B := ⟨.reading, s, [], []⟩

/-- A sequence of events. -/
def Session.run (text : String → B) (eof : Res B → Bool) (rs : List (Route S B)) :
    Session S B → List Ev → Option (Session S B)
  | x, [] => some x
  | x, e :: es => match x.step text eof rs e with
    | some x => x.run text eof rs es
    | none => none

open Verif.Debugger (Model Action)

/-- Bodies: texts, the overview, a step, a file.  How they are written as JSON is not modelled. -/
inductive Body (A M : Type) where
  | text (s : String)
  | api (summary cursor : Nat) (paused : Bool)
  | step (action : Option A) (model : M)
  | file (content : String)
  deriving DecidableEq

/-- `http_debug_server_impl`, `lager/debug/http_server.hpp:361-368`: `model_`, and the actions dispatched to `context_`.
`program_`, which does not change, is left out. -/
structure Srv (A M : Type) where
  model : Model A M
  dispatched : List (Action A)

variable {A M : Type}

/-- `create_response_`, `lager/debug/http_server.hpp:437-447`. -/
def respond (status : Nat) (type : String) (body : Body A M) : Out (Res (Body A M)) := .res ⟨status, type, body⟩

/-- `target.substr(target.rfind('/') + 1)`, `lager/debug/http_server.hpp:289`. -/
def lastPart (target : List Char) : List Char := (target.reverse.takeWhile (· != '/')).reverse

/-- `std::stoul` of digits, `none` if it throws `std::out_of_range`. -/
def stoul (s : List Char) : Option Nat :=
  let n := s.foldl (fun n c => 10 * n + (c.toNat - '0'.toNat)) 0
  if n < 2 ^ 64 then some n else none

/-- The handler of `/api/?`, `lager/debug/http_server.hpp:267-279`. -/
def onApi (_ : Req) (s : Srv A M) : Srv A M × Out (Res (Body A M)) :=
  (s, respond 200 "application/json" (.api s.model.history.length s.model.cursor s.model.paused))

/-- The handler of `/api/step/[0-9]+`, `lager/debug/http_server.hpp:283-298`. -/
def onStep (q : Req) (s : Srv A M) : Srv A M × Out (Res (Body A M)) :=
  match stoul (lastPart q.target) with
  | none => (s, .std "stoul")
  | some c => match s.model.lookup c with
    | none => (s, .std "bad cursor")
    | some (a, m) => (s, respond 200 "application/json" (.step a m))

/-- The handler of `/api/goto/[0-9]+`, `lager/debug/http_server.hpp:302-309`. -/
def onGoto (q : Req) (s : Srv A M) : Srv A M × Out (Res (Body A M)) :=
  match stoul (lastPart q.target) with
  | none => (s, .std "stoul")
  | some c => ({ s with dispatched := s.dispatched ++ [.goto_ c] }, respond 200 "text/html" (.text ""))

/-- The handlers that dispatch an action, `lager/debug/http_server.hpp:311-337`. -/
def onCommand (a : Action A) (_ : Req) (s : Srv A M) : Srv A M × Out (Res (Body A M)) :=
  ({ s with dispatched := s.dispatched ++ [a] }, respond 200 "text/html" (.text ""))

/-- The path of a file, `lager/debug/http_server.hpp:340-343`. -/
def filePath (resources target : List Char) : List Char :=
  resources ++ if target = ['/'] then "/gui/index.html".toList else "/gui/".toList ++ target

/-- The handler of `/?.*`, `lager/debug/http_server.hpp:339-354`; `files` is the file system, `mime` is `mime_type_`. -/
def onFile (resources : List Char) (files : List Char → Option String) (mime : List Char → String) (q : Req) (s : Srv A M) :
    Srv A M × Out (Res (Body A M)) :=
  match files (filePath resources q.target) with
  | none => (s, respond 404 "text/html" (.text "Not found"))
  | some x => (s, respond 200 (mime (filePath resources q.target)) (.file x))

/-- The patterns of the routes. -/
def reApi : Re := .seq (lit "/api".toList) (opt (lit ['/']))
/-- The pattern of `/api/step/`, `lager/debug/http_server.hpp:282`. -/
def reStep : Re := .seq (lit "/api/step/".toList) (plus (.cls isDigit))
/-- The pattern of `/api/goto/`, `lager/debug/http_server.hpp:301`. -/
def reGoto : Re := .seq (lit "/api/goto/".toList) (plus (.cls isDigit))
/-- The pattern of files, `lager/debug/http_server.hpp:339`. -/
def reFile : Re := .seq (opt (lit ['/'])) (.star (.cls isDot))

/-- The routes, `lager/debug/http_server.hpp:263-354`. -/
def routes (resources : List Char) (files : List Char → Option String) (mime : List Char → String) :
    List (Route (Srv A M) (Body A M)) :=
  [⟨.get, reApi, onApi⟩, ⟨.get, reStep, onStep⟩, ⟨.post, reGoto, onGoto⟩,
   ⟨.post, lit "/api/undo".toList, onCommand .undo⟩, ⟨.post, lit "/api/redo".toList, onCommand .redo⟩,
   ⟨.post, lit "/api/pause".toList, onCommand .pause⟩, ⟨.post, lit "/api/resume".toList, onCommand .resume⟩,
   ⟨.get, reFile, onFile resources files mime⟩].foldl route []

/-- The constructor and `init`, `lager/debug/http_server.hpp:246-261`: `model_` is made from nothing, and set by the
callback that watches `data_`, so not before `data_` changes.  `zero` is a model made from nothing. -/
def Srv.new (zero : M) : Srv A M := ⟨Model.start zero, []⟩

/-- What happens to a server: the store changes, a request is answered. -/
inductive Happens (A M : Type) where
  | changed (m : Model A M)
  | request (q : Req)

/-- The callback set in the constructor, `lager/debug/http_server.hpp:254`, and requests. -/
def Srv.step (rs : List (Route (Srv A M) (Body A M))) (s : Srv A M) : Happens A M → Srv A M
  | .changed m => { s with model := m }
  | .request q => (handle .text rs q s).1

/-- The parts of a path between its slashes. -/
def parts : List Char → List (List Char)
  | [] => [[]]
  | c :: cs =>
    if c = '/' then [] :: parts cs
    else match parts cs with
      | [] => [[c]]
      | p :: ps => (c :: p) :: ps

/-- How the system follows an absolute path, without symbolic links: the names of the file it stands for. -/
def resolve (path : List Char) : List (List Char) :=
  (parts path).foldl (fun l p => if p = [] ∨ p = ['.'] then l else if p = ['.', '.'] then l.dropLast else l ++ [p]) []

end Verif.Http
