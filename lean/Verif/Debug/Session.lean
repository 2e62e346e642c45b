import Verif.Debug.Db

/-!
# The debug adapter: requests, sequence numbers and the life of the game

Model of `handle_input` and `SequenceNumber` (`crates/dm-langserver/src/debugger/mod.rs`) and of
`crates/dm-langserver/src/debugger/launched.rs`.
-/

namespace Verif.Debug

/-! ## Requests -/

/-- what the handlers of the requests do: `known` is `handle_request_table` (`debugger/mod.rs:402-444`),
`run` decodes the arguments and calls the handler; it gives the state, the events issued meanwhile (by the
thread of the requests) and the result or the text of the error -/
structure Handlers (σ ε α β : Type) where
  known : Text → Bool
  run : σ → Text → α → σ × List ε × Except Text β

/-- a message from the editor: text that is no message, one of another type, or a request -/
inductive Incoming (α : Type) where
  | garbage
  | other (type : Text)
  | request (seq : Int) (command : Text) (args : α)

/-- a message to the editor -/
inductive Outgoing (ε β : Type) where
  | event (e : ε)
  /-- the output `[main] Error responding to …` -/
  | complaint (command err : Text)
  | response (requestSeq : Int) (command : Text) (result : Except Text β)

/-- the adapter: state of the handlers, next sequence number, messages written with their numbers -/
structure Adapter (σ ε β : Type) where
  st : σ
  next : Nat
  out : List (Nat × Outgoing ε β)

/-- the command `evaluate` -/
def cEvaluate : Text := ['e', 'v', 'a', 'l', 'u', 'a', 't', 'e']

/-- `Request NYI: …` (`debugger/mod.rs:312`) -/
def nyi (command : Text) : Text :=
  ['R', 'e', 'q', 'u', 'e', 's', 't', ' ', 'N', 'Y', 'I', ':', ' '] ++ command

/-- `issue_event` (`debugger/mod.rs:1607-1618`) for several events -/
def Adapter.events {σ ε β : Type} (a : Adapter σ ε β) (es : List ε) : Adapter σ ε β :=
  { a with next := a.next + es.length, out := a.out ++ (es.zipIdx a.next).map fun e => (e.2, .event e.1) }

/-- the call of the handler (`debugger/mod.rs:308-313`) -/
def Handlers.result {σ ε α β : Type} (h : Handlers σ ε α β) (st : σ) (command : Text) (args : α) :
    σ × List ε × Except Text β :=
  if h.known command then h.run st command args else (st, [], .error (nyi command))

/-- the response (`debugger/mod.rs:315-337`) in a release build: its number is taken before the complaint
is issued, it is written after it -/
def Adapter.respond {σ ε β : Type} (a : Adapter σ ε β) (seq : Int) (command : Text)
    (res : Except Text β) : Adapter σ ε β :=
  match res with
  | .ok _ => { a with next := a.next + 1, out := a.out ++ [(a.next, .response seq command res)] }
  | .error e =>
    if command ≠ cEvaluate then
      { a with
        next := a.next + 2
        out := a.out ++ [(a.next + 1, .complaint command e), (a.next, .response seq command res)] }
    else { a with next := a.next + 1, out := a.out ++ [(a.next, .response seq command res)] }

/-- `handle_input` (`debugger/mod.rs:293-339`); `none` is the panic of `expect` -/
def handleInput {σ ε α β : Type} (h : Handlers σ ε α β) (a : Adapter σ ε β) :
    Incoming α → Option (Adapter σ ε β)
  | .garbage => none
  | .other _ => none
  | .request seq command args =>
    let r := h.result a.st command args
    some (({ a with st := r.1 }.events r.2.1).respond seq command r.2.2)

/-- a session: the messages in order -/
def dapSession {σ ε α β : Type} (h : Handlers σ ε α β) : Adapter σ ε β → List (Incoming α) →
    Option (Adapter σ ε β)
  | a, [] => some a
  | a, m :: ms => (handleInput h a m).bind fun a => dapSession h a ms

/-! ## Sequence numbers with several threads -/

/-- `SequenceNumber` (`debugger/mod.rs:1590-1645`): the counter, the numbers taken by threads that have
not written yet, the numbers written in order -/
structure Seqs where
  next : Nat
  held : List (Nat × Nat)
  out : List Nat

/-- one step of a thread: `fetch_add` (`next`, `:1603-1605`), then `send_raw` under the lock of the stream
(`:1641-1644`) -/
inductive SeqStep : Seqs → Seqs → Prop where
  | take (s : Seqs) (t : Nat) (h : ∀ p ∈ s.held, p.1 ≠ t) :
      SeqStep s { s with next := s.next + 1, held := s.held ++ [(t, s.next)] }
  | write (s : Seqs) (t n : Nat) (l r : List (Nat × Nat)) (h : s.held = l ++ (t, n) :: r) :
      SeqStep s { s with held := l ++ r, out := s.out ++ [n] }

/-- the states that can be reached -/
inductive SeqReach : Seqs → Prop where
  | start : SeqReach ⟨0, [], []⟩
  | step {s s' : Seqs} : SeqReach s → SeqStep s s' → SeqReach s'

/-! ## The life of the game -/

/-- `State` (`launched.rs:17-23`) -/
inductive LState where
  | active | killed | detached | exited
deriving DecidableEq, Repr

/-- where a process is, as its manager thread sees it (`launched.rs:96-126`): it runs, it has ended, `wait`
has returned, the thread holds the lock (and has decided whether to send `Terminated`), it has sent
`Exited` -/
inductive Phase where
  | running
  | ended (code : Int)
  | reaped (code : Int)
  | locked (code : Int)
  | told (code : Int)
  | done (code : Int)
deriving DecidableEq, Repr

/-- a launched game -/
structure Child where
  st : LState
  phase : Phase
deriving DecidableEq, Repr

/-- what can be observed: the end of a process with its code, events to the editor about a game, signals to the process, and that a disconnect
with or without termination was served for it -/
inductive Obs where
  | ended (i : Nat) (code : Int)
  | terminated (i : Nat)
  | exited (i : Nat) (code : Int)
  | signal (i : Nat)
  | disconnect (i : Nat) (terminate : Bool)
deriving DecidableEq, Repr

/-- the adapter's processes, the one it holds (`Debugger::launched`), and what was observed, in order -/
structure Life where
  children : List Child
  held : Option Nat
  log : List Obs
deriving DecidableEq, Repr

/-- the manager thread of the game holds the mutex -/
def Phase.locks : Phase → Bool
  | .locked _ => true
  | .told _ => true
  | _ => false

/-- `kill` and `detach` (`launched.rs:131-162`): new state and observations -/
def Child.disconnect (c : Child) (i : Nat) (terminate : Bool) : Child × List Obs :=
  match c.st with
  | .active => if terminate then ({ c with st := .killed }, [.signal i]) else ({ c with st := .detached }, [])
  | _ => (c, [])

/-- one step: `LaunchVsc` (`debugger/mod.rs:533-541`), `Disconnect` (`:560-583`; `default_terminate` is true,
because a game is held), the end of a process, and the steps of its manager thread -/
inductive LifeStep : Life → Life → Prop where
  | launch (w : Life) :
      LifeStep w { w with children := w.children ++ [⟨.active, .running⟩], held := some w.children.length }
  | disconnect (w : Life) (i : Nat) (c : Child) (terminate : Option Bool) (hh : w.held = some i)
      (hc : w.children[i]? = some c) (hl : c.phase.locks = false) :
      LifeStep w { children := w.children.set i (c.disconnect i (terminate.getD true)).1
                   held := none
                   log := w.log ++ .disconnect i (terminate.getD true) ::
                     (c.disconnect i (terminate.getD true)).2 }
  | ends (w : Life) (i : Nat) (c : Child) (code : Int) (hc : w.children[i]? = some c)
      (hp : c.phase = .running) :
      LifeStep w { w with
        children := w.children.set i { c with phase := .ended code }
        log := w.log ++ [.ended i code] }
  | waited (w : Life) (i : Nat) (c : Child) (code : Int) (hc : w.children[i]? = some c)
      (hp : c.phase = .ended code) :
      LifeStep w { w with children := w.children.set i { c with phase := .reaped code } }
  | lock (w : Life) (i : Nat) (c : Child) (code : Int) (hc : w.children[i]? = some c)
      (hp : c.phase = .reaped code) :
      LifeStep w { w with children := w.children.set i { c with phase := .locked code } }
  | tell (w : Life) (i : Nat) (c : Child) (code : Int) (hc : w.children[i]? = some c)
      (hp : c.phase = .locked code) :
      LifeStep w { w with
        children := w.children.set i ⟨.exited, .told code⟩
        log := w.log ++ if c.st = .active then [.terminated i] else [] }
  | exit (w : Life) (i : Nat) (c : Child) (code : Int) (hc : w.children[i]? = some c)
      (hp : c.phase = .told code) :
      LifeStep w { w with
        children := w.children.set i { c with phase := .done code }
        log := w.log ++ [.exited i code] }

/-- the states that can be reached -/
inductive LifeReach : Life → Prop where
  | start : LifeReach ⟨[], none, []⟩
  | step {w w' : Life} : LifeReach w → LifeStep w w' → LifeReach w'

end Verif.Debug
