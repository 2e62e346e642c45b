import Verif.Server.Rpc

/-!
# What the driver has to do, in terms of the history of calls
-/

namespace Verif.Server

variable {I S V : Type}

/-- The id that a call has to be answered with; notifications are not answered. -/
def Call.asks : Call I V → Option I
  | .invalid id => some id
  | .method id _ _ => some id
  | .notification _ _ => none

/-- The calls of a message. -/
def Message.calls : Message I V → List (Call I V)
  | .single c => [c]
  | .batch cs => cs
  | .garbage _ => []

/-- The ids that a message has to be answered with, in order; a message that is no JSON-RPC is
answered with the id `null`. -/
def Message.asks (null : I) : Message I V → List I
  | .garbage _ => [null]
  | m => m.calls.filterMap Call.asks

/-- The call is the notification `exit`. -/
def Call.IsExit (c : Call I V) : Prop := ∃ p, c = .notification "exit" p

/-- The ids in something written. -/
def Written.answers : Written I V → List I
  | .single o => [o.id]
  | .batch os => os.map Output.id
  | .notify _ _ => []

/-- Among these calls is an `initialize` with well-formed parameters. -/
def Opened (h : Handlers I S V) (past : List (Call I V)) : Prop :=
  ∃ id p body, Call.method id "initialize" p ∈ past ∧ h.init p = .ok body

/-- Among these calls is an `initialize` and later a `shutdown`, both with well-formed
parameters. -/
def Closed (h : Handlers I S V) (past : List (Call I V)) : Prop :=
  ∃ before id p after, past = before ++ Call.method id "shutdown" p :: after ∧
    h.shutdown p = .ok () ∧ Opened h before

/-- Initialized and not shut down. -/
def Active (h : Handlers I S V) (past : List (Call I V)) : Prop := Opened h past ∧ ¬ Closed h past

/-- What a call does after a history: from the state `s` to `s'`, the notifications it issues and the
answer it gets. -/
inductive Does (h : Handlers I S V) (past : List (Call I V)) (s : S) :
    Call I V → S → List (String × V) → Option (Except Err V) → Prop
  | /-- Something that is no call. -/
    invalid (id) : Does h past s (.invalid id) s [] (some (.error ⟨-32600, "Invalid request"⟩))
  | /-- A request outside of the active time. -/
    outside (id name p) : name ≠ "initialize" → ¬ Active h past →
      Does h past s (.method id name p) s []
        (some (.error ⟨-32002, "method call before initialize or after shutdown"⟩))
  | /-- `initialize` with bad parameters. -/
    badInit (id p m) : h.init p = .error m →
      Does h past s (.method id "initialize" p) s [] (some (.error ⟨-32600, m⟩))
  | /-- A second `initialize`. -/
    initAgain (id p body) : h.init p = .ok body → Opened h past →
      Does h past s (.method id "initialize" p) s [] (some (.error ⟨-32600, ""⟩))
  | /-- The first `initialize`. -/
    init (id p body s' ns r) : h.init p = .ok body → ¬ Opened h past → body s = (s', ns, r) →
      Does h past s (.method id "initialize" p) s' ns (some r)
  | /-- `shutdown` with bad parameters. -/
    badShutdown (id p m) : Active h past → h.shutdown p = .error m →
      Does h past s (.method id "shutdown" p) s [] (some (.error ⟨-32600, m⟩))
  | /-- `shutdown`. -/
    shutdown (id p) : Active h past → h.shutdown p = .ok () →
      Does h past s (.method id "shutdown" p) s [] (some (.ok h.unit))
  | /-- Some other request that is known. -/
    request (id name p d f s' ns r) : Active h past → name ≠ "initialize" → name ≠ "shutdown" →
      h.request name = some d → d p = .ok f → f s = (s', ns, r) →
      Does h past s (.method id name p) s' ns (some r)
  | /-- Some other request that is known, with bad parameters. -/
    badRequest (id name p d m) : Active h past → name ≠ "initialize" → name ≠ "shutdown" →
      h.request name = some d → d p = .error m →
      Does h past s (.method id name p) s [] (some (.error ⟨-32600, m⟩))
  | /-- A request that is not known. -/
    unknownRequest (id name p) : Active h past → name ≠ "initialize" → name ≠ "shutdown" →
      h.request name = none →
      Does h past s (.method id name p) s [] (some (.error ⟨-32603, "not yet implemented"⟩))
  | /-- A notification outside of the active time. -/
    dropped (name p) : name ≠ "exit" → ¬ Active h past →
      Does h past s (.notification name p) s [] none
  | /-- A notification that is not known. -/
    unknownNotification (name p) : name ≠ "exit" → h.notification name = none →
      Does h past s (.notification name p) s [] none
  | /-- A notification that is known. -/
    notification (name p d f s' ns) : Active h past → name ≠ "exit" → h.notification name = some d →
      d p = .ok f → f s = (s', ns, .ok ()) → Does h past s (.notification name p) s' ns none
  | /-- A notification whose handler fails: the user is shown a message. -/
    failing (name p d f s' ns err) : Active h past → name ≠ "exit" →
      h.notification name = some d → d p = .ok f → f s = (s', ns, .error err) →
      Does h past s (.notification name p) s'
        (ns ++ [("window/showMessage", h.showError err.message)]) none
  | /-- A notification with bad parameters. -/
    badNotification (name p d m) : Active h past → name ≠ "exit" →
      h.notification name = some d → d p = .error m →
      Does h past s (.notification name p) s [("window/showMessage", h.showError m)] none

/-- What a list of calls does: the outputs are those of the calls that are answered, in order. -/
inductive DoesAll (h : Handlers I S V) : List (Call I V) → S → List (Call I V) → S →
    List (String × V) → List (Output I V) → Prop
  | nil (past s) : DoesAll h past s [] s [] []
  | silent (past s c cs s' ns s'' ns' os) : Does h past s c s' ns none → c.asks = none →
      DoesAll h (past ++ [c]) s' cs s'' ns' os → DoesAll h past s (c :: cs) s'' (ns ++ ns') os
  | answered (past s c cs s' ns r id s'' ns' os) : Does h past s c s' ns (some r) →
      c.asks = some id → DoesAll h (past ++ [c]) s' cs s'' ns' os →
      DoesAll h past s (c :: cs) s'' (ns ++ ns') (⟨id, r⟩ :: os)

/-- What is written in reply: nothing, one response, or an array of them. -/
inductive Replies : List (Output I V) → List (Written I V) → Prop
  | none : Replies [] []
  | one (o) : Replies [o] [.single o]
  | many (os) : 2 ≤ os.length → Replies os [.batch os]

/-- What a session without `exit` writes, message by message: first the notifications, then the
reply. -/
inductive Session (h : Handlers I S V) : List (Call I V) → S → List (Message I V) → S →
    List (Written I V) → Prop
  | nil (past s) : Session h past s [] s []
  | calls (past s m ms s' ns os ws s'' out) : (∀ why, m ≠ .garbage why) →
      DoesAll h past s m.calls s' ns os → Replies os ws →
      Session h (past ++ m.calls) s' ms s'' out →
      Session h past s (m :: ms) s'' (ns.map (fun n => .notify n.1 n.2) ++ (ws ++ out))
  | garbage (past s why ms s' out) : Session h past s ms s' out →
      Session h past s (.garbage why :: ms) s' (.single ⟨h.null, .error ⟨-32700, why⟩⟩ :: out)

end Verif.Server
