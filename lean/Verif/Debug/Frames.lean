import Verif.Debug.Breaks

/-!
# The debug adapter: threads, frames, scopes and variables

Model of `Threads`, `StackTrace`, `Scopes`, `Variables` and `Disassemble`
(`crates/dm-langserver/src/debugger/mod.rs`) for extools, and of the names of variables for both engines.
-/

namespace Verif.Debug

/-- a value of the game, `ValueText` (`extools_types.rs:103-110`): the number if it is a reference
(`Literal::Ref`), whether it has variables, whether it is a list, and how it is shown -/
structure Val where
  ref : Option Int
  hasVars : Bool
  isList : Bool
  shown : Text
deriving DecidableEq

/-- `ValueText::to_variables_reference` (`extools_types.rs:145-150`) -/
def Val.reference (v : Val) : Int :=
  match v.ref with
  | some r => if v.hasVars || v.isList then r else 0
  | none => 0

/-- `StackFrame` (`extools_types.rs:57-70`) -/
structure Frame where
  proc : Text
  ov : Nat
  offset : Int
  src : Val
  usr : Val
  dot : Val
  locals : List Val
  args : List Val
  localNames : List Text
  argNames : List Text

/-- `threads: HashMap<i64, ThreadInfo>` (`extools.rs:147`): the threads are numbered from 0 without gaps,
so they are a list; it is empty until the game stops for the first time -/
abbrev Threads := List (List Frame)

/-- `CallStack` (`extools.rs:558-566`): the current thread gets number 0, the suspended ones follow -/
def callStack (current : List Frame) (suspended : List (List Frame)) : Threads := current :: suspended

/-- how a request ends: with an answer, an error or a panic -/
inductive Out (α : Type) where
  | ok (a : α)
  | error
  | panic
deriving DecidableEq

/-- `as usize` of an `i64` -/
def asUsize (x : Int) : Nat := (x % 2 ^ 64).toNat

/-- `Threads` (`debugger/mod.rs:608-629`): numbers and names; `last().unwrap()` of an empty stack panics.
The order, which is that of a hash table, is fixed here. -/
def threadNames : Nat → Threads → Out (List (Nat × Text))
  | _, [] => .ok []
  | k, st :: ts =>
    match st.getLast? with
    | none => .panic
    | some f =>
      match threadNames (k + 1) ts with
      | .ok rest => .ok ((k, f.proc) :: rest)
      | .error => .error
      | .panic => .panic

/-- the answer of `Threads` (`debugger/mod.rs:621-628`): never empty -/
def threadsRequest (ts : Threads) : Out (List (Nat × Text)) :=
  match threadNames 0 ts with
  | .ok [] => .ok [(0, ['M', 'a', 'i', 'n'])]
  | r => r

/-- a number in decimal -/
def showNat (n : Nat) : Text := Nat.toDigits 10 n

/-- an `i64` in decimal -/
def showInt (n : Int) : Text :=
  match n with
  | .ofNat k => showNat k
  | .negSucc k => '-' :: showNat (k + 1)

/-- what `StackTrace` says of a frame besides its place (C92): name, id and instruction pointer
(`debugger/mod.rs:966-974`) -/
structure FrameRow where
  name : Text
  id : Int
  pointer : Text
deriving DecidableEq

/-- the format `{}@{}#{}` (`debugger/mod.rs:969-972`) -/
def pointerOf (f : Frame) : Text := f.proc ++ '@' :: showNat f.ov ++ '#' :: showInt f.offset

/-- `StackTrace` (`debugger/mod.rs:957-1041`), extools; `get_thread` (`extools.rs:210-219`) fails for an
unknown thread -/
def stackTrace (ts : Threads) (threadId : Int) : Out (List FrameRow) :=
  if threadId < 0 then .error
  else match ts[threadId.toNat]? with
    | none => .error
    | some st => .ok (st.zipIdx.map fun fi =>
        ⟨fi.1.proc, ((fi.2 * ts.length : Nat) : Int) + threadId, pointerOf fi.1⟩)

/-- `get_thread_by_frame_id` (`extools.rs:221-234`): the remainder by the number of threads, which panics
if there are none -/
def threadByFrame (ts : Threads) (frameId : Int) : Out (List Frame × Nat) :=
  if ts.length = 0 then .panic
  else match ts[asUsize frameId % ts.length]? with
    | none => .error
    | some st => .ok (st, asUsize frameId / ts.length)

/-- a scope: the reference of its variables and how many it has -/
structure Scope where
  name : Text
  ref : Int
  count : Option Nat
deriving DecidableEq

/-- the names of the scopes -/
def nLocals : Text := ['L', 'o', 'c', 'a', 'l', 's']
/-- the names of the scopes -/
def nArguments : Text := ['A', 'r', 'g', 'u', 'm', 'e', 'n', 't', 's']
/-- the names of the scopes -/
def nGlobals : Text := ['G', 'l', 'o', 'b', 'a', 'l', 's']

/-- `Scopes` (`debugger/mod.rs:1121-1160`), extools.  `frameId * 2 + 2` does not overflow, because the
frame exists. -/
def scopes (ts : Threads) (frameId : Int) : Out (List Scope) :=
  if ts.length = 0 then .panic
  else match ts[asUsize frameId % ts.length]? with
    | none => .panic
    | some st =>
      match st[asUsize frameId / ts.length]? with
      | none => .error
      | some f => .ok [
        ⟨nLocals, frameId * 2 + 2, some f.locals.length⟩,
        ⟨nArguments, frameId * 2 + 1, some (2 + f.args.length)⟩,
        ⟨nGlobals, 0x0e000001, none⟩]

/-- `Variable`: name, value and reference -/
structure Var where
  name : Text
  value : Text
  ref : Int
deriving DecidableEq

/-- a variable of a value -/
def Var.of (name : Text) (v : Val) : Var := ⟨name, v.shown, v.reference⟩

/-- the table `seen`: how often a name came, counted from 0 -/
abbrev Seen := Text → Option Nat

/-- `seen.entry(name).and_modify(|e| *e += 1).or_default()` -/
def Seen.bump (s : Seen) (name : Text) : Seen × Nat :=
  let n := match s name with
    | none => 0
    | some k => k + 1
  (fun x => if x = name then some n else s x, n)

/-- the name of a variable: `name` or `name #n` (`debugger/mod.rs:1281-1284,1315-1318,1347-1354`) -/
def suffixed (name : Text) (n : Nat) : Text :=
  if n = 0 then name else name ++ ' ' :: '#' :: showNat n

/-- the names of a list of values: `names.get(i)` made distinct, and `other i` for those without a name
(`debugger/mod.rs:1278-1289` and `1312-1322`) -/
def labels (other : Nat → Text) (names : List Text) : Seen → Nat → List Val → List Var
  | _, _, [] => []
  | s, i, v :: vs =>
    match names[i]? with
    | some n =>
      let (s', k) := s.bump n
      .of (suffixed n k) v :: labels other names s' (i + 1) vs
    | none => .of (other i) v :: labels other names s (i + 1) vs

/-- the name `src` -/
def nSrc : Text := ['s', 'r', 'c']
/-- the name `usr` -/
def nUsr : Text := ['u', 's', 'r']

/-- `args[i]` (`debugger/mod.rs:1287`) -/
def argLabel (i : Nat) : Text := 'a' :: 'r' :: 'g' :: 's' :: '[' :: showNat (i + 1) ++ [']']

/-- the table with `src` and `usr` (`debugger/mod.rs:1262,1269`) -/
def seenArgs : Seen := fun x => if x = nUsr then some 0 else if x = nSrc then some 0 else none

/-- the variables of the arguments (`debugger/mod.rs:1256-1294`) -/
def argVars (f : Frame) : List Var :=
  .of nSrc f.src :: .of nUsr f.usr :: labels argLabel f.argNames seenArgs 0 f.args

/-- the local variables (`debugger/mod.rs:1295-1327`) -/
def localVars (f : Frame) : List Var :=
  .of ['.'] f.dot :: labels showNat f.localNames (fun _ => none) 0 f.locals

/-- `ListContents` (`extools_types.rs`) -/
inductive Contents where
  | linear (l : List Val)
  | assoc (l : List (Val × Val))

/-- `name[i]` -/
def indexed (name : Text) (i : Nat) : Text := name ++ '[' :: showNat (1 + i) ++ [']']

/-- the variables of a list (`debugger/mod.rs:1214-1240`) -/
def Contents.vars : Contents → List Var
  | .linear l => l.zipIdx.map fun vi => .of (indexed [] vi.2) vi.1
  | .assoc l => l.zipIdx.flatMap fun vi =>
      [.of (indexed ['k', 'e', 'y', 's'] vi.2) vi.1.1, .of (indexed ['v', 'a', 'l', 's'] vi.2) vi.1.2]

/-- insertion by name -/
def insertField (e : Text × Val) : List (Text × Val) → List (Text × Val)
  | [] => [e]
  | x :: xs => if textLe e.1 x.1 then e :: x :: xs else x :: insertField e xs

/-- `sort_unstable_by_key(|tup| tup.0)` (`debugger/mod.rs:1246`); the names of a hash table are distinct,
so every sort gives this list -/
def sortFields : List (Text × Val) → List (Text × Val)
  | [] => []
  | e :: es => insertField e (sortFields es)

/-- what the game tells about references (`extools.rs`: `get_list_contents`, `get_all_fields`); `none` if
it fails -/
structure Game where
  list : Int → Option Contents
  fields : Int → Option (List (Text × Val))

/-- `Variables` (`debugger/mod.rs:1201-1331`), extools; `from_variables_reference`
(`extools_types.rs:131-143`) decides by the upper byte whether it is a list -/
def variables (ts : Threads) (game : Game) (r : Int) : Out (List Var) :=
  if r ≥ 0x01000000 then
    if r / 2 ^ 24 = 0x0F then
      match game.list r with
      | some c => .ok c.vars
      | none => .error
    else
      match game.fields r with
      | some l => .ok ((sortFields l).map fun e => .of e.1 e.2)
      | none => .error
  else
    match threadByFrame ts ((r - 1).tdiv 2) with
    | .panic => .panic
    | .error => .error
    | .ok (st, k) =>
      match st[k]? with
      | none => .error
      | some f =>
        if r.tmod 2 = 1 then .ok (argVars f)
        else if r.tmod 2 = 0 then .ok (localVars f)
        else .error

/-- `Variables` for auxtools (`debugger/mod.rs:1333-1368`): names of the game made distinct -/
def auxLabels : Seen → List (Text × Text × Int) → List Var
  | _, [] => []
  | s, (n, v, r) :: rest =>
    let (s', k) := s.bump n
    ⟨suffixed n k, v, r⟩ :: auxLabels s' rest

/-! ## Disassembly -/

/-- `MEMORY_REFERENCE_REGEX` (`debugger/mod.rs:1562-1565`), `^([^#]+)#(\d+)@(\d+)$`, and the captures 1
and 2; `digit` is the class `\d` -/
def memoryReference (digit : Char → Bool) (s : Text) : Option (Text × Text) :=
  let proc := s.takeWhile (· ≠ '#')
  let rest := (s.dropWhile (· ≠ '#')).drop 1
  let num := rest.takeWhile (· ≠ '@')
  let off := (rest.dropWhile (· ≠ '@')).drop 1
  if proc ≠ [] ∧ '#' ∈ s ∧ '@' ∈ rest ∧ num ≠ [] ∧ num.all digit ∧ off ≠ [] ∧ off.all digit
  then some (proc, num) else none

/-- `Disassemble` (`debugger/mod.rs:1525-1552`), extools: the addresses and texts of the instructions -/
def disassemble (digit : Char → Bool) (code : Text → Nat → List Instr) (reference : Text) :
    Out (List (Text × Text)) :=
  match memoryReference digit reference with
  | none => .error
  | some (proc, num) =>
    match parseUsize num with
    | none => .error
    | some ov => .ok ((code proc ov).map fun i =>
        (proc ++ '#' :: showNat ov ++ '@' :: showInt i.offset, i.mnemonic ++ ' ' :: ' ' :: i.comment))

/-! ## Evaluation -/

/-- what the evaluation shows -/
inductive Shown where
  | help
  | listing (code : List Instr)

/-- `str::trim_start` -/
def trimStart (white : Char → Bool) (s : Text) : Text := s.dropWhile white

/-- the word `#help` -/
def hHelp : Text := ['#', 'h', 'e', 'l', 'p']
/-- the word `#dis` -/
def hDis : Text := ['#', 'd', 'i', 's']
/-- the word `#disassemble` -/
def hDisassemble : Text := ['#', 'd', 'i', 's', 'a', 's', 's', 'e', 'm', 'b', 'l', 'e']

/-- `evaluate` (`debugger/evaluate.rs:8-58`), extools -/
def evaluate (white : Char → Bool) (ts : Threads) (code : Text → Nat → List Instr) (frameId : Option Int)
    (expression : Text) : Out Shown :=
  let input := trimStart white expression
  if hHelp.isPrefixOf input then .ok .help
  else match frameId with
    | none => .error
    | some id =>
      match threadByFrame ts id with
      | .panic => .panic
      | .error => .error
      | .ok (st, k) =>
        if input.head? = some '#' then
          if input = hDis ∨ input = hDisassemble then
            match st[k]? with
            | none => .error
            | some f => .ok (.listing (code f.proc f.ov))
          else .error
        else .error

end Verif.Debug
