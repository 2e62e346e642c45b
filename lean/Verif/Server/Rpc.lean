/-!
# The driver of the language server

Model of `handle_input`, `handle_call`, `handle_method_call`, `handle_notification`, `exit`,
`Initialize` and `Shutdown` of `crates/dm-langserver/src/main.rs`, and of the loop of `main`.

A message is taken after it has been decoded from JSON (that is done by `serde_json` and
`jsonrpc-core`, which are not part of the repository).  Ids, JSON values and the state that the
handlers work on stay arbitrary types.
-/

namespace Verif.Server

/-- `InitStatus` (main.rs:110-115). -/
inductive Status
  | starting
  | running
  | shuttingDown
  deriving DecidableEq, Repr

/-- `jsonrpc::Error` without its `data`, which is always `None` (main.rs:1273-1277, 1566-1572). -/
structure Err where
  /-- The number of the code. -/
  code : Int
  /-- The text. -/
  message : String
  deriving DecidableEq, Repr

/-- `jsonrpc::Call`, as `jsonrpc-core` decodes it: something that is no call but may have an id, a
request, a notification. -/
inductive Call (I V : Type)
  | invalid (id : I)
  | method (id : I) (name : String) (params : V)
  | notification (name : String) (params : V)

/-- What `serde_json::from_str` makes of a message (main.rs:1220-1237). -/
inductive Message (I V : Type)
  | single (c : Call I V)
  | batch (cs : List (Call I V))
  | garbage (why : String)

/-- `jsonrpc::Output`: an id with a result or an error. -/
structure Output (I V : Type) where
  /-- The id. -/
  id : I
  /-- The result. -/
  result : Except Err V

/-- What goes to stdout: `Response::Single`, `Response::Batch` or a notification. -/
inductive Written (I V : Type)
  | single (o : Output I V)
  | batch (os : List (Output I V))
  | notify (name : String) (body : V)

/-- What a handler of a request does: it changes the state of the engine, issues notifications and
returns a result. -/
abbrev Handler (S V R : Type) := S → S × List (String × V) × Except Err R

/-- The handlers.  Each first decodes its parameters (`serde_json::from_value`), which may fail. -/
structure Handlers (I S V : Type) where
  /-- The parameters of `initialize`; its body after the status was set (main.rs:1381-1453). -/
  init : V → Except String (Handler S V V)
  /-- The parameters of `shutdown`. -/
  shutdown : V → Except String Unit
  /-- What `Shutdown` answers: `()` as JSON. -/
  unit : V
  /-- The other entries of `handle_method_call_table` (main.rs:1349-1366). -/
  request : String → Option (V → Except String (Handler S V V))
  /-- `handle_notification_table` (main.rs:2447-2457). -/
  notification : String → Option (V → Except String (Handler S V Unit))
  /-- The parameters of `window/showMessage` with the type ERROR (main.rs:332-345). -/
  showError : String → V
  /-- `jsonrpc::Id::Null`. -/
  null : I

/-- The engine (main.rs:281-300): its status, everything else, and what it wrote to stdout. -/
structure Engine (I S V : Type) where
  /-- `status`. -/
  status : Status
  /-- The other fields. -/
  state : S
  /-- Everything written so far, in order. -/
  out : List (Written I V)

/-- The engine after a step, or the process has ended. -/
inductive Step (I S V A : Type)
  | go (e : Engine I S V) (a : A)
  | exited (e : Engine I S V) (code : Nat)

variable {I S V : Type}

/-- `invalid_request` (main.rs:2566-2572), `ErrorCode::InvalidRequest` is -32600. -/
def invalidRequest (message : String) : Err := ⟨-32600, message⟩

/-- `Output::invalid_request` of `jsonrpc-core`. -/
def invalidOutput (id : I) : Output I V := ⟨id, .error ⟨-32600, "Invalid request"⟩⟩

/-- Runs a handler: notifications it issues are written at once (main.rs:324-330, 2656-2668). -/
def runHandler {R : Type} (e : Engine I S V) (h : Handler S V R) : Engine I S V × Except Err R :=
  match h e.state with
  | (s, ns, r) => ({ e with state := s, out := e.out ++ ns.map (fun n => .notify n.1 n.2) }, r)

/-- An entry of the table: decode the parameters, or answer that they are bad
(main.rs:1335-1339, 2437-2441). -/
def decoded {P R : Type} (e : Engine I S V) (d : Except String P)
    (f : P → Engine I S V × Except Err R) : Engine I S V × Except Err R :=
  match d with
  | .error m => (e, .error (invalidRequest m))
  | .ok p => f p

/-- `Initialize` (main.rs:1375-1453). -/
def startUp (e : Engine I S V) (body : Handler S V V) : Engine I S V × Except Err V :=
  if e.status ≠ .starting then (e, .error (invalidRequest ""))
  else runHandler { e with status := .running } body

/-- `Shutdown` (main.rs:1455-1458). -/
def shutDown (h : Handlers I S V) (e : Engine I S V) : Engine I S V × Except Err V :=
  ({ e with status := .shuttingDown }, .ok h.unit)

/-- `handle_method_call` (main.rs:1266-1293) with `handle_method_call_table` (main.rs:1329-1366). -/
def handleMethodCall (h : Handlers I S V) (e : Engine I S V) (name : String) (params : V) :
    Engine I S V × Except Err V :=
  if name ≠ "initialize" ∧ e.status ≠ .running then
    (e, .error ⟨-32002, "method call before initialize or after shutdown"⟩)
  else if name = "initialize" then decoded e (h.init params) (startUp e)
  else if name = "shutdown" then decoded e (h.shutdown params) (fun _ => shutDown h e)
  else match h.request name with
    | some d => decoded e (d params) (runHandler e)
    | none => (e, .error ⟨-32603, "not yet implemented"⟩)

/-- `handle_notification` (main.rs:1295-1318); `exit` (main.rs:1320-1325) ends the process.  The
threads it joins may still write; that is not modelled. -/
def handleNotification (h : Handlers I S V) (e : Engine I S V) (name : String) (params : V) :
    Step I S V (Except Err Unit) :=
  if name = "exit" then .exited e (if e.status = .shuttingDown then 0 else 1)
  else if e.status ≠ .running then .go e (.ok ())
  else match h.notification name with
    | some d => match decoded e (d params) (runHandler e) with
      | (e, r) => .go e r
    | none => .go e (.ok ())

/-- `handle_call` (main.rs:1246-1264). -/
def handleCall (h : Handlers I S V) (e : Engine I S V) : Call I V → Step I S V (Option (Output I V))
  | .invalid id => .go e (some (invalidOutput id))
  | .method id name params =>
    match handleMethodCall h e name params with
    | (e, r) => .go e (some ⟨id, r⟩)
  | .notification name params =>
    match handleNotification h e name params with
    | .exited e code => .exited e code
    | .go e (.error err) =>
      .go { e with out := e.out ++ [.notify "window/showMessage" (h.showError err.message)] } none
    | .go e (.ok _) => .go e none

/-- The loop over a batch (main.rs:1222-1225): the outputs are collected. -/
def handleCalls (h : Handlers I S V) (e : Engine I S V) :
    List (Call I V) → Step I S V (List (Output I V))
  | [] => .go e []
  | c :: cs => match handleCall h e c with
    | .exited e code => .exited e code
    | .go e o => match handleCalls h e cs with
      | .exited e code => .exited e code
      | .go e os => .go e (o.toList ++ os)

/-- The outputs of a message (main.rs:1220-1237). -/
def outputs (h : Handlers I S V) (e : Engine I S V) : Message I V → Step I S V (List (Output I V))
  | .single c => handleCalls h e [c]
  | .batch cs => handleCalls h e cs
  | .garbage why => .go e [⟨h.null, .error ⟨-32700, why⟩⟩]

/-- What is written for the outputs (main.rs:1239-1243). -/
def reply : List (Output I V) → List (Written I V)
  | [] => []
  | [o] => [.single o]
  | os => [.batch os]

/-- `handle_input` (main.rs:1219-1244). -/
def handleInput (h : Handlers I S V) (e : Engine I S V) (m : Message I V) : Step I S V Unit :=
  match outputs h e m with
  | .exited e code => .exited e code
  | .go e os => .go { e with out := e.out ++ reply os } ()

/-- `run_until_stdin_eof` (jrpc_io.rs:7-13) on the messages that arrive. -/
def handleAll (h : Handlers I S V) (e : Engine I S V) : List (Message I V) → Step I S V Unit
  | [] => .go e ()
  | m :: ms => match handleInput h e m with
    | .exited e code => .exited e code
    | .go e _ => handleAll h e ms

/-- `main` (main.rs:103-105) for a client that sends these messages and closes the stream: what was
written and the exit code. -/
def main (h : Handlers I S V) (s : S) (ms : List (Message I V)) : Engine I S V × Nat :=
  match handleAll h ⟨.starting, s, []⟩ ms with
  | .exited e code => (e, code)
  | .go e _ => (e, 0)

end Verif.Server
