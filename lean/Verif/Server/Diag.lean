/-!
# Diagnostics

Model of `DiagnosticsTracker` of `crates/dm-langserver/src/main.rs`, and of the two threads of
`parse_environment` that use it.
-/

namespace Verif.Server

/-- `Severity` (dreammaker/src/error.rs:359-366). -/
inductive Severity
  | error
  | warning
  | info
  | hint
  deriving DecidableEq, Repr

/-- `Location` (dreammaker/src/error.rs:288-296). -/
structure Place where
  /-- The file. -/
  file : Nat
  /-- The line, from 1. -/
  line : Nat
  /-- The column, from 1. -/
  column : Nat
  deriving DecidableEq, Repr

/-- `DiagnosticNote` (dreammaker/src/error.rs). -/
structure Note where
  /-- The location. -/
  loc : Place
  /-- The description. -/
  text : String
  deriving DecidableEq, Repr

/-- `DMError` (dreammaker/src/error.rs). -/
structure DMError where
  /-- The location. -/
  loc : Place
  /-- The severity. -/
  severity : Severity
  /-- The name of the component, `None` for `Component::Unspecified`. -/
  component : Option String
  /-- The description. -/
  text : String
  /-- The error type. -/
  code : Option String
  /-- The notes. -/
  notes : List Note
  deriving DecidableEq, Repr

/-- `lsp_types::Position`. -/
structure Pos where
  /-- The line, from 0. -/
  line : Nat
  /-- The character, from 0. -/
  character : Nat
  deriving DecidableEq, Repr

/-- `lsp_types::DiagnosticRelatedInformation`. -/
structure Related (U : Type) where
  /-- The document. -/
  uri : U
  /-- The range. -/
  range : Pos × Pos
  /-- The message. -/
  message : String
  deriving DecidableEq, Repr

/-- `lsp_types::Diagnostic`, the fields that are set. -/
structure Diagnostic (U : Type) where
  /-- The message. -/
  message : String
  /-- The severity. -/
  severity : Severity
  /-- The range. -/
  range : Pos × Pos
  /-- The source. -/
  source : String
  /-- The code. -/
  code : Option String
  /-- The related information. -/
  related : Option (List (Related U))
  deriving DecidableEq, Repr

variable {U : Type} [DecidableEq U]

/-- `location_to_position` (main.rs:2637-2642). -/
def toPosition (l : Place) : Pos := ⟨l.line - 1, l.column - 1⟩

/-- `location_to_range` (main.rs:2644-2647). -/
def toRange (l : Place) : Pos × Pos := (toPosition l, toPosition l)

/-- `component_to_source` (main.rs:2670-2672). -/
def toSource (c : Option String) : String := c.getD "dm-langserver"

/-- A map from documents to diagnostics, as the list of its entries: every key once. -/
abbrev DiagMap (U : Type) := List (U × List (Diagnostic U))

/-- `map.entry(uri).or_insert_with(Default::default).push(diag)`. -/
def DiagMap.push : DiagMap U → U → Diagnostic U → DiagMap U
  | [], u, d => [(u, [d])]
  | (v, ds) :: m, u, d => if v = u then (v, ds ++ [d]) :: m else (v, ds) :: DiagMap.push m u d

/-- The related information of an error (main.rs:192-213). -/
def relatedInfo (url : Nat → Option U) (related : Bool) (e : DMError) : Option (List (Related U)) :=
  if !related || e.notes.isEmpty then none
  else some (e.notes.filterMap (fun n =>
    (url n.loc.file).map (fun uri => ⟨uri, toRange n.loc, n.text⟩)))

/-- The diagnostic of an error (main.rs:214-222). -/
def mainDiag (url : Nat → Option U) (related : Bool) (e : DMError) : Diagnostic U :=
  ⟨e.text, e.severity, toRange e.loc, toSource e.component, e.code, relatedInfo url related e⟩

/-- The diagnostic of a note, for clients that do not know related information
(main.rs:231-237). -/
def noteDiag (e : DMError) (n : Note) : Diagnostic U :=
  ⟨n.text, .info, toRange n.loc, toSource e.component, none, none⟩

/-- The body of the inner loop (main.rs:230-245). -/
def pushNote (url : Nat → Option U) (e : DMError) (m : DiagMap U) (n : Note) : DiagMap U :=
  match url n.loc.file with
  | none => m
  | some u => m.push u (noteDiag e n)

/-- The body of the outer loop (main.rs:190-247). -/
def pushError (url : Nat → Option U) (related : Bool) (m : DiagMap U) (e : DMError) : DiagMap U :=
  match url e.loc.file with
  | none => m
  | some u =>
    if !related then e.notes.foldl (pushNote url e) (m.push u (mainDiag url related e))
    else m.push u (mainDiag url related e)

/-- `DiagnosticsTracker::build` (main.rs:183-249).  How files become documents (`file_url`,
main.rs:174-181) is a parameter. -/
def build (url : Nat → Option U) (related : Bool) (errors : List DMError) : DiagMap U :=
  errors.foldl (pushError url related) []

/-- A `textDocument/publishDiagnostics`. -/
structure Publish (U : Type) where
  /-- The document. -/
  uri : U
  /-- Its diagnostics. -/
  diagnostics : List (Diagnostic U)
  deriving DecidableEq, Repr

/-- Where a thread is in `send` (main.rs:251-274); both lists are what is left to go through, in the
order in which the hash table yields it. -/
inductive Sending (U : Type)
  | /-- The first loop. -/
    publishing (todo : DiagMap U) (newSent : List U)
  | /-- The second loop. -/
    erasing (todo : List U)
  deriving DecidableEq, Repr

/-- Where the main thread is in `parse_environment` (main.rs:518-656).  The maps are what `build` will
make of the errors after parsing, and after the check if there is one. -/
inductive MainPc (U : Type)
  | /-- Handling messages, or parsing. -/
    idle
  | /-- Parsed; about to take the lock (main.rs:614). -/
    parsed (first : DiagMap U) (second : Option (DiagMap U))
  | /-- Has the lock; about to spawn the thread (main.rs:617-647). -/
    locked (first : DiagMap U) (second : Option (DiagMap U))
  | /-- In `send` (main.rs:656). -/
    sending (run : Nat) (first : DiagMap U) (at' : Sending U)
  deriving DecidableEq, Repr

/-- Where a checking thread is (main.rs:624-644). -/
inductive CheckPc (U : Type)
  | /-- Checking, or waiting for the lock. -/
    working
  | /-- In `send` (main.rs:641). -/
    sending (at' : Sending U)
  | /-- Done. -/
    done
  deriving DecidableEq, Repr

/-- A checking thread: its map and where it is. -/
structure Checker (U : Type) where
  /-- Which run of `parse_environment` it belongs to. -/
  run : Nat
  /-- The map it will send. -/
  map : DiagMap U
  /-- Where it is. -/
  pc : CheckPc U
  deriving DecidableEq, Repr

/-- Who holds the lock. -/
inductive Holder
  | main
  | checker (i : Nat)
  deriving DecidableEq, Repr

/-- All threads. -/
structure System (U : Type) where
  /-- `diagnostics_tracker`. -/
  sent : List U
  /-- The mutex around it. -/
  lock : Option Holder
  /-- The main thread. -/
  main : MainPc U
  /-- The number of runs of `parse_environment` that got to the lock. -/
  runs : Nat
  /-- The checking threads, in the order in which they were spawned. -/
  checkers : List (Checker U)
  /-- What was published, in order. -/
  out : List (Publish U)
  /-- For the statements: which sends have been completed: the run, whether it was the thread's, and the
  map. -/
  log : List (Nat × Bool × DiagMap U)
  deriving DecidableEq, Repr

/-- One step of `send` (main.rs:251-274): the tracker, where it is, what is published.  Between the loops
the rest of `sent` comes in any order.  No result: it is done. -/
inductive SendStep (sent : List U) : Sending U → List U → Option (Sending U) → List (Publish U) → Prop
  | publish (u ds todo new) :
      SendStep sent (.publishing ((u, ds) :: todo) new) (sent.erase u)
        (some (.publishing todo (new ++ [u]))) [⟨u, ds⟩]
  | swap (new order) : order.Perm sent →
      SendStep sent (.publishing [] new) new (some (.erasing order)) []
  | erase (u todo) : SendStep sent (.erasing (u :: todo)) sent (some (.erasing todo)) [⟨u, []⟩]
  | finish : SendStep sent (.erasing []) sent none []

/-- One step of some thread.  The maps of a run are any maps: the order of their entries is that of the
hash table. -/
inductive SysStep : System U → System U → Prop
  | /-- The main thread handles messages and parses an environment. -/
    parse (s first second) : s.main = .idle → (first.map Prod.fst).Nodup →
      (∀ m, second = some m → (m.map Prod.fst).Nodup) →
      SysStep s { s with main := .parsed first second }
  | /-- It takes the lock. -/
    lock (s first second) : s.main = .parsed first second → s.lock = none →
      SysStep s { s with main := .locked first second, lock := some .main }
  | /-- It spawns the checking thread, or not. -/
    spawn (s first second) : s.main = .locked first second →
      SysStep s { s with
        main := .sending s.runs first (.publishing first [])
        runs := s.runs + 1
        checkers := s.checkers ++ (second.map (fun m => ⟨s.runs, m, .working⟩)).toList }
  | /-- It sends. -/
    mainSend (s run first pc sent' pc' ps) : s.main = .sending run first pc →
      SendStep s.sent pc sent' (some pc') ps →
      SysStep s { s with sent := sent', main := .sending run first pc', out := s.out ++ ps }
  | /-- It is done and unlocks. -/
    mainDone (s run first pc sent' ps) : s.main = .sending run first pc →
      SendStep s.sent pc sent' none ps →
      SysStep s { s with
        sent := sent', main := .idle, lock := none, out := s.out ++ ps
        log := s.log ++ [(run, false, first)] }
  | /-- A checking thread takes the lock. -/
    checkLock (s i c) : s.checkers[i]? = some c → c.pc = .working → s.lock = none →
      SysStep s { s with
        lock := some (.checker i)
        checkers := s.checkers.set i { c with pc := .sending (.publishing c.map []) } }
  | /-- It sends. -/
    checkSend (s i c pc sent' pc' ps) : s.checkers[i]? = some c → c.pc = .sending pc →
      SendStep s.sent pc sent' (some pc') ps →
      SysStep s { s with
        sent := sent', out := s.out ++ ps
        checkers := s.checkers.set i { c with pc := .sending pc' } }
  | /-- It is done and unlocks. -/
    checkDone (s i c pc sent' ps) : s.checkers[i]? = some c → c.pc = .sending pc →
      SendStep s.sent pc sent' none ps →
      SysStep s { s with
        sent := sent', lock := none, out := s.out ++ ps
        checkers := s.checkers.set i { c with pc := .done }
        log := s.log ++ [(c.run, true, c.map)] }

/-- The start. -/
def System.init : System U := ⟨[], none, .idle, 0, [], [], []⟩

/-- What can happen. -/
inductive Reach : System U → Prop
  | init : Reach System.init
  | step {s s'} : Reach s → SysStep s s' → Reach s'

end Verif.Server
