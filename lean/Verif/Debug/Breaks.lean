import Verif.Debug.Db

/-!
# The debug adapter: breakpoints

Model of `SetBreakpoints` and `SetFunctionBreakpoints` (`crates/dm-langserver/src/debugger/mod.rs`) for both
debug engines.
-/

namespace Verif.Debug

/-- a breakpoint in the game: an entry of `saved_breakpoints` (`debugger/mod.rs:262`): proc reference,
number of the definition, offset of the instruction -/
structure Bp where
  proc : Text
  ov : Nat
  off : Int
deriving DecidableEq, Repr

/-- why a breakpoint is not verified -/
inductive Note where
  /-- `Debugging hooks not available` -/
  | hooks
  /-- `Unable to determine offset in proc` -/
  | noOffset
  /-- `Unable to determine proc ref` -/
  | noProc
  /-- `Unknown proc …` -/
  | unknownProc (proc : Text) (ov : Nat)
  /-- the engine refused it; there is no text -/
  | refused
deriving DecidableEq

/-- `dap_types::Breakpoint` as far as it is filled in: a verified one has no note -/
structure Answer where
  note : Option Note
  line : Option Nat
deriving DecidableEq

/-- a verified breakpoint -/
def Answer.verified (a : Answer) : Bool := a.note.isNone

/-- what the editor asks for; the conditions are only looked at by auxtools -/
inductive Req where
  /-- `SetBreakpoints`: path of the source, `sourceModified`, lines with conditions -/
  | lines (path : Option Path) (modified : Bool) (bps : List (Nat × Option Text))
  /-- `SetFunctionBreakpoints`: names with conditions -/
  | funcs (names : List (Text × Option Text))

/-- `FileId::default()` (`error.rs:22-29`), the key of the function breakpoints -/
def fileFunctions : Nat := 0xffff

/-- `saved_breakpoints: HashMap<FileId, HashSet<…>>` (`debugger/mod.rs:262`); a set is a list, a file
without an entry has the empty set (`entry().or_default()`) -/
abbrev Saved := Nat → List Bp

/-- `entry(file).or_default()` assigned -/
def Saved.put (s : Saved) (f : Nat) (v : List Bp) : Saved := fun g => if g = f then v else s g

/-- `HashSet::insert` -/
def setInsert (s : List Bp) (b : Bp) : List Bp := if b ∈ s then s else s ++ [b]

/-- `str::parse::<usize>` -/
def parseUsize (s : Text) : Option Nat :=
  let r : Option Nat := match s with
    | [] => none
    | ['+'] => none
    | '+' :: ds => digitsVal ds 0
    | ds => digitsVal ds 0
  r.filter fun n => n < 2 ^ 64

/-- the parts of a function reference `proc#number` (`debugger/mod.rs:851-856`); `none` is the error of a
number that is none -/
def parseFunction (name : Text) : Option (Text × Nat) :=
  if '#' ∈ name then
    (parseUsize ((name.dropWhile (· ≠ '#')).drop 1)).map fun k => (name.takeWhile (· ≠ '#'), k)
  else some (name, 0)

/-! ## extools -/

/-- a message to the game (`extools.rs:290-304`) -/
inductive Msg where
  | set (b : Bp)
  | unset (b : Bp)
deriving DecidableEq

/-- what the loops carry: the saved set of the source, the set to keep, the messages sent, the answers -/
structure Acc where
  saved : List Bp
  keep : List Bp
  sent : List Msg
  answers : List Answer

/-- `if saved.insert(tup.clone()) { extools.set_breakpoint(…) } keep.insert(tup)` and the answer -/
def Acc.accept (a : Acc) (b : Bp) (ans : Answer) : Acc :=
  { saved := setInsert a.saved b
    keep := setInsert a.keep b
    sent := if b ∈ a.saved then a.sent else a.sent ++ [.set b]
    answers := a.answers ++ [ans] }

/-- only an answer -/
def Acc.refuse (a : Acc) (ans : Answer) : Acc := { a with answers := a.answers ++ [ans] }

/-- one line of `SetBreakpoints` (`debugger/mod.rs:688-731`) -/
def exLine (db : Db) (code : Text → Nat → List Instr) (f : Nat) (a : Acc) (line : Nat) : Acc :=
  match db.tree.locationToProcRef f line with
  | none => a.refuse ⟨some .noProc, some line⟩
  | some (path, name, ov) =>
    match lineToOffset (code (path ++ '/' :: name) ov) line with
    | none => a.refuse ⟨some .noOffset, some line⟩
    | some off => a.accept ⟨path ++ '/' :: name, ov, off⟩ ⟨none, some line⟩

/-- the names of `SetFunctionBreakpoints` (`debugger/mod.rs:849-880`); the flag says whether the loop came
to its end, it stops at a malformed number (`parse()?`) -/
def exFuncs (db : Db) : Acc → List Text → Acc × Bool
  | a, [] => (a, true)
  | a, n :: ns =>
    match parseFunction n with
    | none => (a, false)
    | some (proc, ov) =>
      match db.tree.getProc proc ov with
      | some loc => exFuncs db (a.accept ⟨proc, ov, 0⟩ ⟨none, some loc.line⟩) ns
      | none => exFuncs db (a.refuse ⟨some (.unknownProc proc ov), none⟩) ns

/-- `saved.retain(…)` (`debugger/mod.rs:733-740` and `882-889`): what is not kept is unset and forgotten -/
def Acc.retain (a : Acc) : Acc :=
  { a with
    saved := a.saved.filter (· ∈ a.keep)
    sent := a.sent ++ (a.saved.filter (· ∉ a.keep)).map .unset }

/-- a request with extools: the saved breakpoints after it, the messages sent, and the answers, `none`
for an error.  `SetBreakpoints` is `debugger/mod.rs:654-743`, `SetFunctionBreakpoints` `827-892`;
`connected` says whether `extools.as_ref()` gives a connection. -/
def exRequest (db : Db) (code : Text → Nat → List Instr) (connected : Bool) (s : Saved) :
    Req → Saved × List Msg × Option (List Answer)
  | .lines path modified bps =>
    match path.bind db.fileId with
    | none => (s, [], none)
    | some f =>
      if modified then (s, [], none)
      else if connected then
        let a := ((bps.map (·.1)).foldl (exLine db code f) ⟨s f, [], [], []⟩).retain
        (s.put f a.saved, a.sent, some a.answers)
      else (s, [], some (bps.map fun b => ⟨some .hooks, some b.1⟩))
  | .funcs names =>
    if connected then
      let (a, done) := exFuncs db ⟨s fileFunctions, [], [], []⟩ (names.map (·.1))
      if done then
        let a := a.retain
        (s.put fileFunctions a.saved, a.sent, some a.answers)
      else (s.put fileFunctions a.saved, a.sent, none)
    else (s, [], some (names.map fun _ => ⟨some .hooks, none⟩))

/-- the breakpoints of the game after a message -/
def Msg.act (e : List Bp) : Msg → List Bp
  | .set b => b :: e
  | .unset b => e.filter (· ≠ b)

/-- a session with a game that is connected from the start: saved breakpoints and those of the game -/
def exSession (db : Db) (code : Text → Nat → List Instr) : List Req → Saved × List Bp
  | [] => (fun _ => [], [])
  | r :: past =>
    let (s, e) := exSession db code past
    let out := exRequest db code true s r
    (out.1, out.2.1.foldl Msg.act e)

/-! ## auxtools -/

/-- what the game with auxtools does: the offset of a line, whether a breakpoint can be set (and its
line), and which calls are lost (a lost call disconnects, `auxtools.rs:103-117,141-148`) -/
structure AuxEnv where
  offset : Text → Nat → Nat → Option Nat
  accepts : Bp → Option (Option Nat)
  lost : Nat → Bool

/-- the link to the game: its breakpoints with conditions, how many calls were made, whether it is down -/
structure Aux where
  bps : List (Bp × Option Text)
  calls : Nat
  down : Bool

/-- a call goes through if the link is up and the call is not lost; a lost one takes the link down -/
def Aux.call (env : AuxEnv) (x : Aux) : Aux × Bool :=
  if x.down || env.lost x.calls then ({ x with calls := x.calls + 1, down := true }, false)
  else ({ x with calls := x.calls + 1 }, true)

/-- `set_breakpoint` (`auxtools.rs:243-258`): the game replaces a breakpoint at the same place -/
def Aux.set (env : AuxEnv) (x : Aux) (b : Bp) (cond : Option Text) : Aux × Option (Option (Option Nat)) :=
  let (x, ok) := x.call env
  if ok then
    match env.accepts b with
    | some line => ({ x with bps := (b, cond) :: x.bps.filter (·.1 ≠ b) }, some (some line))
    | none => (x, some none)
  else (x, none)

/-- `unset_breakpoint` (`auxtools.rs:260-275`), its result ignored -/
def Aux.unset (env : AuxEnv) (x : Aux) (b : Bp) : Aux :=
  let (x, ok) := x.call env
  if ok then { x with bps := x.bps.filter (·.1 ≠ b) } else x

/-- what the loops carry -/
structure AuxAcc where
  saved : List Bp
  keep : List Bp
  link : Aux
  answers : List Answer

/-- saving and setting one breakpoint (`debugger/mod.rs:759-788` and `911-937`); the flag is false if the
call was lost -/
def AuxAcc.accept (env : AuxEnv) (a : AuxAcc) (b : Bp) (cond : Option Text) : AuxAcc × Bool :=
  let (link, res) := a.link.set env b cond
  let a := { a with saved := setInsert a.saved b, keep := setInsert a.keep b, link := link }
  match res with
  | none => (a, false)
  | some (some line) => ({ a with answers := a.answers ++ [⟨none, line⟩] }, true)
  | some none => ({ a with answers := a.answers ++ [⟨some .refused, none⟩] }, true)

/-- the lines of `SetBreakpoints` (`debugger/mod.rs:748-808`) -/
def auxLines (db : Db) (env : AuxEnv) (f : Nat) : AuxAcc → List (Nat × Option Text) → AuxAcc × Bool
  | a, [] => (a, true)
  | a, (line, cond) :: rest =>
    match db.tree.locationToProcRef f line with
    | none => auxLines db env f { a with answers := a.answers ++ [⟨some .noProc, some line⟩] } rest
    | some (path, name, ov) =>
      let (link, ok) := a.link.call env
      let a := { a with link := link }
      if ok then
        match env.offset (path ++ '/' :: name) ov line with
        | none => auxLines db env f { a with answers := a.answers ++ [⟨some .noOffset, some line⟩] } rest
        | some off =>
          let (a, ok) := a.accept env ⟨path ++ '/' :: name, ov, (off : Int)⟩ cond
          if ok then auxLines db env f a rest else (a, false)
      else (a, false)

/-- the names of `SetFunctionBreakpoints` (`debugger/mod.rs:897-938`) -/
def auxFuncs (env : AuxEnv) : AuxAcc → List (Text × Option Text) → AuxAcc × Bool
  | a, [] => (a, true)
  | a, (n, cond) :: rest =>
    match parseFunction n with
    | none => (a, false)
    | some (proc, ov) =>
      let (a, ok) := a.accept env ⟨proc, ov, 0⟩ cond
      if ok then auxFuncs env a rest else (a, false)

/-- `saved.retain(…)` (`debugger/mod.rs:810-823` and `940-953`) -/
def AuxAcc.retain (env : AuxEnv) (a : AuxAcc) : AuxAcc :=
  { a with
    saved := a.saved.filter (· ∈ a.keep)
    link := (a.saved.filter (· ∉ a.keep)).foldl (Aux.unset env) a.link }

/-- a request with auxtools (`debugger/mod.rs:654-672,745-826` and `827-840,893-955`): saved breakpoints,
link and answers, `none` for an error -/
def auxRequest (db : Db) (env : AuxEnv) (s : Saved) (x : Aux) : Req → Saved × Aux × Option (List Answer)
  | .lines path modified bps =>
    match path.bind db.fileId with
    | none => (s, x, none)
    | some f =>
      if modified then (s, x, none)
      else
        let (a, done) := auxLines db env f ⟨s f, [], x, []⟩ bps
        if done then
          let a := a.retain env
          (s.put f a.saved, a.link, some a.answers)
        else (s.put f a.saved, a.link, none)
  | .funcs names =>
    let (a, done) := auxFuncs env ⟨s fileFunctions, [], x, []⟩ names
    if done then
      let a := a.retain env
      (s.put fileFunctions a.saved, a.link, some a.answers)
    else (s.put fileFunctions a.saved, a.link, none)

/-- a session with a game that is connected from the start -/
def auxSession (db : Db) (env : AuxEnv) : List Req → Saved × Aux
  | [] => (fun _ => [], ⟨[], 0, false⟩)
  | r :: past =>
    let (s, x) := auxSession db env past
    let out := auxRequest db env s x r
    (out.1, out.2.1)

end Verif.Debug
