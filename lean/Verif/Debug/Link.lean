/-!
# The debug adapter: the connection to the game

Model of the streams and of the calls of `crates/dm-langserver/src/debugger/extools.rs` and
`crates/dm-langserver/src/debugger/auxtools.rs`.
-/

namespace Verif.Debug

/-! ## extools: messages that end with a zero byte -/

/-- the loop `while let Some(end) = terminator.take()` (`extools.rs:421-433`): hand over the message up to
the terminator (which is relative to the buffer), then look for the next; `fuel` bounds the loop -/
def chopMessages (fuel : Nat) (buffer : List UInt8) (terminator : Option Nat) :
    List (List UInt8) × List UInt8 :=
  match fuel, terminator with
  | _, none => ([], buffer)
  | 0, _ => ([], buffer)
  | fuel + 1, some t =>
    let rest := buffer.drop (t + 1)
    let r := chopMessages fuel rest (rest.findIdx? (· == 0))
    (buffer.take t :: r.1, r.2)

/-- one turn of `read_loop` (`extools.rs:402-437`): the chunk read is searched for a terminator, which is
then counted from the start of the buffer -/
def readChunk (buffer chunk : List UInt8) : List (List UInt8) × List UInt8 :=
  chopMessages ((buffer ++ chunk).length + 1) (buffer ++ chunk)
    ((chunk.findIdx? (· == 0)).map (buffer.length + ·))

/-- `read_loop` (`extools.rs:399-440`) on the chunks that `read` gives until the end of the stream: the
messages handled, and the bytes left over -/
def readLoop : List UInt8 → List (List UInt8) → List (List UInt8) × List UInt8
  | buffer, [] => ([], buffer)
  | buffer, c :: cs =>
    if c = [] then ([], buffer)
    else
      let r := readChunk buffer c
      let r' := readLoop r.2 cs
      (r.1 ++ r'.1, r'.2)

/-- `ExtoolsSender::send` (`extools.rs:661-674`) without the encoding: the message and a zero byte -/
def nulFrame (m : List UInt8) : List UInt8 := m ++ [0]

/-! ## auxtools: messages after their length -/

/-- `read_exact` of a stream that comes in chunks: the bytes, and what is left; `none` at the end of the
stream -/
def readExact : Nat → List (List UInt8) → Option (List UInt8 × List (List UInt8))
  | 0, cs => some ([], cs)
  | _ + 1, [] => none
  | n + 1, c :: cs =>
    if n + 1 ≤ c.length then some (c.take (n + 1), c.drop (n + 1) :: cs)
    else (readExact (n + 1 - c.length) cs).map fun r => (c ++ r.1, r.2)
termination_by n cs => (cs.length, n)

/-- `u32::from_le_bytes` -/
def leNat : List UInt8 → Nat
  | [] => 0
  | b :: bs => b.toNat + 256 * leNat bs

/-- `u32::to_le_bytes` -/
def leBytes : Nat → Nat → List UInt8
  | 0, _ => []
  | k + 1, n => UInt8.ofNat (n % 256) :: leBytes k (n / 256)

/-- what the thread does with a message (`auxtools.rs`: `handle_response`) -/
inductive Handled where
  /-- an event for the editor, a notification -/
  | event
  /-- a response for the queue -/
  | response
  /-- `Disconnect`, or a message that cannot be decoded or queued: the thread ends -/
  | stop
deriving DecidableEq

/-- `AuxtoolsThread::run` (`auxtools.rs`): the messages handled, and what was done with each; `fuel` bounds
the number of messages -/
def auxRun (handle : List UInt8 → Handled) : Nat → List (List UInt8) → List (List UInt8 × Handled)
  | 0, _ => []
  | fuel + 1, cs =>
    match readExact 4 cs with
    | none => []
    | some (len, cs) =>
      match readExact (leNat len) cs with
      | none => []
      | some (m, cs) =>
        (m, handle m) :: if handle m = .stop then [] else auxRun handle fuel cs

/-- `Auxtools::send` (`auxtools.rs:119-135`) without the encoding: the length, then the message -/
def lenFrame (m : List UInt8) : List UInt8 := leBytes 4 m.length ++ m

/-! ## Calls -/

/-- how an engine waits: `chan` gives the queue on which the answer to a call of a kind comes in (extools:
one for each kind, auxtools: one for all), `drops` says whether a failed call ends the connection
(auxtools: `read_response_or_disconnect`, `send_or_disconnect`, `auxtools.rs:103-147`) -/
structure Engine where
  chan : Nat → Nat
  drops : Bool

/-- `StreamState` (`auxtools.rs:15-23`); with extools calls are made only on a connection.  `waiting` says
whether the game has connected in the meantime. -/
inductive Conn where
  | waiting (accepted : Bool)
  | connected
  | disconnected
deriving DecidableEq

/-- what goes to the game: call number `n`, or a message without an answer (`set_catch_runtimes`) -/
inductive Sent where
  | call (n : Nat)
  | cast
deriving DecidableEq

/-- what comes from the game: the answer to call `n`, or an event -/
inductive Item where
  | resp (n : Nat)
  | event
deriving DecidableEq

/-- how a call ends: with the answer to call `m`, which may be of a kind that is not expected
(`UnexpectedResponse`), or without one -/
inductive Ending where
  | answer (m : Nat)
  | unexpected (m : Nat)
  | failed
deriving DecidableEq

/-- the connection: its state, the kinds of the calls made so far, what is on the way, what waits in the
queues, the call that is waiting, and how calls ended -/
structure Link where
  conn : Conn
  kinds : List Nat
  toGame : List Sent
  fromGame : List Item
  queue : Nat → List Nat
  waiting : Option Nat
  results : List (Nat × Ending)

/-- `send` (`auxtools.rs:119-140`): a stream that was accepted is picked up; without one nothing is sent,
which counts as success -/
def Link.send (l : Link) (s : Sent) : Link :=
  match l.conn with
  | .waiting true => { l with conn := .connected, toGame := l.toGame ++ [s] }
  | .connected => { l with toGame := l.toGame ++ [s] }
  | _ => l

/-- put an answer into a queue -/
def push (q : Nat → List Nat) (c n : Nat) : Nat → List Nat := fun d => if d = c then q d ++ [n] else q d

/-- how a call of kind `k` ends with the answer to call `m` -/
def Link.ending (l : Link) (k m : Nat) : Ending :=
  if l.kinds[m]? = some k then .answer m else .unexpected m

/-- one step of the adapter, the game or the reading thread -/
inductive LinkStep (e : Engine) : Link → Link → Prop where
  /-- the adapter makes a call -/
  | call (l : Link) (k : Nat) (h : l.waiting = none) :
      LinkStep e l { l.send (.call l.kinds.length) with
        kinds := l.kinds ++ [k], waiting := some l.kinds.length }
  /-- writing fails (auxtools disconnects; extools panics) -/
  | callFails (l : Link) (k : Nat) (h : l.waiting = none) (hd : e.drops = true) (hc : l.conn = .connected) :
      LinkStep e l { l with
        conn := .disconnected, kinds := l.kinds ++ [k], results := l.results ++ [(l.kinds.length, .failed)] }
  /-- the adapter sends a message without an answer -/
  | cast (l : Link) (h : l.waiting = none) : LinkStep e l (l.send .cast)
  /-- the answer is there -/
  | receive (l : Link) (n k m : Nat) (q : List Nat) (h : l.waiting = some n) (hk : l.kinds[n]? = some k)
      (hq : l.queue (e.chan k) = m :: q) :
      LinkStep e l { l with
        queue := fun d => if d = e.chan k then q else l.queue d
        waiting := none
        results := l.results ++ [(n, l.ending k m)] }
  /-- no answer in time -/
  | timeout (l : Link) (n k : Nat) (h : l.waiting = some n) (hk : l.kinds[n]? = some k)
      (hq : l.queue (e.chan k) = []) :
      LinkStep e l { l with
        conn := if e.drops then .disconnected else l.conn
        waiting := none
        results := l.results ++ [(n, .failed)] }
  /-- the game connects -/
  | accept (l : Link) (h : l.conn = .waiting false) : LinkStep e l { l with conn := .waiting true }
  /-- the game answers the next call -/
  | serve (l : Link) (n : Nat) (rest : List Sent) (h : l.toGame = .call n :: rest) :
      LinkStep e l { l with toGame := rest, fromGame := l.fromGame ++ [.resp n] }
  /-- the game takes a message without an answer -/
  | serveCast (l : Link) (rest : List Sent) (h : l.toGame = .cast :: rest) :
      LinkStep e l { l with toGame := rest }
  /-- the game sends an event -/
  | event (l : Link) : LinkStep e l { l with fromGame := l.fromGame ++ [.event] }
  /-- the reading thread queues an answer -/
  | deliver (l : Link) (n k : Nat) (rest : List Item) (h : l.fromGame = .resp n :: rest)
      (hk : l.kinds[n]? = some k) :
      LinkStep e l { l with fromGame := rest, queue := push l.queue (e.chan k) n }
  /-- the reading thread passes an event on -/
  | deliverEvent (l : Link) (rest : List Item) (h : l.fromGame = .event :: rest) :
      LinkStep e l { l with fromGame := rest }

/-- a fresh connection -/
def Link.start (c : Conn) : Link := ⟨c, [], [], [], fun _ => [], none, []⟩

/-- the states that can be reached -/
inductive LinkReach (e : Engine) (c : Conn) : Link → Prop where
  | start : LinkReach e c (Link.start c)
  | step {l l' : Link} : LinkReach e c l → LinkStep e l l' → LinkReach e c l'

/-- extools -/
def exEngine : Engine := ⟨id, false⟩

/-- auxtools -/
def auxEngine : Engine := ⟨fun _ => 0, true⟩

end Verif.Debug
