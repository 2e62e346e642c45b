/-!
# The debug adapter: lines, procs and instructions

Model of `crates/dm-langserver/src/debugger/mod.rs` (the debug database) and of the line tables of
`crates/dm-langserver/src/debugger/extools.rs`.
-/

namespace Verif.Debug

/-- text; Rust's `str` compares by bytes, which is the order of code points -/
abbrev Text := List Char

/-- `dm::Location` (`crates/dreammaker/src/error.rs:286-341`); the column is not used by the debugger -/
structure Loc where
  file : Nat
  line : Nat
deriving DecidableEq, Repr

/-- `FILEID_BUILTINS` (`error.rs:20`) -/
def fileBuiltins : Nat := 0

/-- `Location::is_builtins` (`error.rs:338-340`) -/
def Loc.isBuiltins (l : Loc) : Bool := l.file == fileBuiltins

/-- what the debugger looks at in a type of the object tree: its path and, for each proc of the type,
the locations of its definitions in the order of `TypeProc::value` (`objtree.rs`) -/
structure Ty where
  path : Text
  procs : List (Text × List Loc)

/-- the object tree: its types in the order in which `TypeRef::recurse` (`objtree.rs:309-314`) visits
them; `find` looks the path up (`objtree.rs:745-750`), the root having the empty path -/
structure Tree where
  types : List Ty

/-- `ObjectTree::find` (`objtree.rs:745-750`) -/
def Tree.find (t : Tree) (path : Text) : Option Ty := t.types.find? fun ty => ty.path == path

/-- `STDDEF_PROCS` (`debugger/mod.rs:1721-1772`) as text -/
def stddefNames : List String := [
  "/sound/New", "/sound/RscFile", "/icon/New", "/icon/Icon",
  "/icon/RscFile", "/icon/IconStates", "/icon/Turn", "/icon/Flip",
  "/icon/Shift", "/icon/SetIntensity", "/icon/Blend", "/icon/SwapColor",
  "/icon/DrawBox", "/icon/Insert", "/icon/MapColors", "/icon/Scale",
  "/icon/Crop", "/icon/GetPixel", "/icon/Width", "/icon/Height",
  "/matrix/New", "/matrix/Multiply", "/matrix/Add", "/matrix/Subtract",
  "/matrix/Invert", "/matrix/Turn", "/matrix/Scale", "/matrix/Translate",
  "/matrix/Interpolate", "/database/New", "/database/Open", "/database/Close",
  "/database/Error", "/database/ErrorMsg", "/database/query/New", "/database/query/Open",
  "/database/query/Clear", "/database/query/Add", "/database/query/Execute", "/database/query/NextRow",
  "/database/query/RowsAffected", "/database/query/Reset", "/database/query/Columns", "/database/query/GetColumn",
  "/database/query/GetRowData", "/database/query/Close", "/exception/New", "/regex/New",
  "/regex/Find", "/regex/Replace"]

/-- `STDDEF_PROCS` (`debugger/mod.rs:1721-1772`) -/
def stddefProcs : List Text := stddefNames.map String.toList

/-- the definitions of a proc that take a number: builtin ones at the front are skipped, unless the
proc is one of `stddef.dm` (`debugger/mod.rs:155-161` and `212-217`) -/
def counted (procRef : Text) (vs : List Loc) : List Loc :=
  vs.dropWhile fun pv => pv.isBuiltins && !(stddefProcs.contains procRef)

/-- an entry of the line table (`LineNumber`, `debugger/mod.rs:55-56`): line, path of the type, name of
the proc and number of the definition -/
structure Entry where
  line : Nat
  path : Text
  name : Text
  ov : Nat
deriving DecidableEq, Repr

/-- the order of text -/
def textLe : Text → Text → Bool
  | [], _ => true
  | _ :: _, [] => false
  | a :: as, b :: bs => a.toNat < b.toNat || (a.toNat == b.toNat && textLe as bs)

/-- the order of `(i64, String, String, usize)` -/
def Entry.le (a b : Entry) : Bool :=
  a.line < b.line || (a.line == b.line &&
    if a.path ≠ b.path then textLe a.path b.path
    else if a.name ≠ b.name then textLe a.name b.name
    else a.ov ≤ b.ov)

/-- insertion into a sorted list -/
def insertEntry (e : Entry) : List Entry → List Entry
  | [] => [e]
  | x :: xs => if e.le x then e :: x :: xs else x :: insertEntry e xs

/-- `vec.sort()` (`debugger/mod.rs:175-177`).  The algorithm is replaced by insertion sort: the order is
total, so every sort gives this list. -/
def sortEntries : List Entry → List Entry
  | [] => []
  | e :: es => insertEntry e (sortEntries es)

/-- the definitions of the procs of a type, as `build` pushes them: file and entry
(`debugger/mod.rs:153-172`) -/
def Ty.entries (ty : Ty) : List (Nat × Entry) :=
  ty.procs.flatMap fun np =>
    (counted (ty.path ++ '/' :: np.1) np.2).zipIdx.map fun pi =>
      (pi.1.file, ⟨pi.1.line, ty.path, np.1, pi.2⟩)

/-- `line_numbers` after `DebugDatabaseBuilder::build` (`debugger/mod.rs:143-181`): for each file the
sorted entries of that file -/
def Tree.lines (t : Tree) (file : Nat) : List Entry :=
  sortEntries ((t.types.flatMap Ty.entries).filterMap fun fe => if fe.1 == file then some fe.2 else none)

/-- `location_to_proc_ref` (`debugger/mod.rs:233-242`) -/
def Tree.locationToProcRef (t : Tree) (file line : Nat) : Option (Text × Text × Nat) :=
  ((t.lines file).reverse.find? fun e => e.line ≤ line).map fun e => (e.path, e.name, e.ov)

/-- `str::split('/')` -/
def splitSlash : Text → List Text
  | [] => [[]]
  | c :: cs =>
    if c = '/' then [] :: splitSlash cs
    else match splitSlash cs with
      | [] => [[c]]
      | w :: ws => (c :: w) :: ws

/-- `join("/")` -/
def joinSlash : List Text → Text
  | [] => []
  | [w] => w
  | w :: w' :: ws => w ++ '/' :: joinSlash (w' :: ws)

/-- the words `proc` and `verb` -/
def kindWords : List Text := [['p', 'r', 'o', 'c'], ['v', 'e', 'r', 'b']]

/-- the two words a proc reference consists of: the path of the type, without `proc` or `verb`, and the
name (`debugger/mod.rs:199-207`) -/
def splitProcRef (procRef : Text) : Text × Text :=
  let bits := splitSlash procRef
  let name := bits.getLast?.getD []
  let rest := bits.dropLast
  let rest := if rest.getLast?.any (kindWords.contains ·) then rest.dropLast else rest
  (joinSlash rest, name)

/-- `get_proc` (`debugger/mod.rs:194-220`) -/
def Tree.getProc (t : Tree) (procRef : Text) (ov : Nat) : Option Loc :=
  let (typename, procname) := splitProcRef procRef
  (t.find typename).bind fun ty =>
    (ty.procs.find? fun np => np.1 == procname).bind fun np =>
      (counted procRef np.2)[ov]?

/-! ## File names -/

/-- a path of the file system as its components -/
abbrev Path := List Text

/-- `DebugDatabase` without the line table, which is computed from the tree
(`debugger/mod.rs:183-188`); `files` are the registered files (ids from 1 on, `error.rs:21,50-67`) -/
structure Db where
  root : Path
  files : List Path
  tree : Tree

/-- `FileList::get_id` (`error.rs:71-73`) -/
def Db.getId (db : Db) (p : Path) : Option Nat := (db.files.findIdx? (· == p)).map (· + 1)

/-- `FileList::get_path` (`error.rs:76-88`) for a registered file -/
def Db.getPath (db : Db) (f : Nat) : Option Path := if f = 0 then none else db.files[f - 1]?

/-- `Path::strip_prefix` -/
def stripPrefix : Path → Path → Option Path
  | [], p => some p
  | _ :: _, [] => none
  | a :: as, b :: bs => if a = b then stripPrefix as bs else none

/-- `DebugDatabase::file_id` (`debugger/mod.rs:227-231`) -/
def Db.fileId (db : Db) (p : Path) : Option Nat := db.getId ((stripPrefix db.root p).getD p)

/-! ## The line table of the byte code -/

/-- `DisassembledInstruction` (`extools_types.rs:49-56`); bytes and jumps are left out -/
structure Instr where
  offset : Int
  mnemonic : Text
  comment : Text
deriving DecidableEq, Repr

/-- `"DBG LINENO"` -/
def dbgLineno : Text := ['D', 'B', 'G', ' ', 'L', 'I', 'N', 'E', 'N', 'O']

/-- `"Line number: "` -/
def linePrefix : Text := ['L', 'i', 'n', 'e', ' ', 'n', 'u', 'm', 'b', 'e', 'r', ':', ' ']

/-- the decimal number that the digits write -/
def digitsVal : Text → Nat → Option Nat
  | [], acc => some acc
  | c :: cs, acc => if c.isDigit then digitsVal cs (acc * 10 + (c.toNat - 48)) else none

/-- `str::parse::<i64>` -/
def parseI64 (s : Text) : Option Int :=
  let r : Option Int := match s with
    | [] => none
    | ['-'] => none
    | ['+'] => none
    | '-' :: ds => (digitsVal ds 0).map fun n => -(n : Int)
    | '+' :: ds => (digitsVal ds 0).map fun n => (n : Int)
    | ds => (digitsVal ds 0).map fun n => (n : Int)
  r.filter fun n => -(2 ^ 63 : Int) ≤ n && n < (2 ^ 63 : Int)

/-- `parse_lineno` (`extools.rs:378-384`) -/
def parseLineno (comment : Text) : Option Int :=
  if linePrefix.isPrefixOf comment then parseI64 (comment.drop linePrefix.length) else none

/-- the loop of `offset_to_line` (`extools.rs:259-269`) with the comment carried along -/
def offsetToLineGo (offset : Int) (comment : Text) : List Instr → Option Int
  | [] => none
  | i :: is =>
    let comment := if i.mnemonic = dbgLineno then i.comment else comment
    if i.offset ≥ offset then parseLineno comment else offsetToLineGo offset comment is

/-- `offset_to_line` (`extools.rs:253-270`) -/
def offsetToLine (bc : List Instr) (offset : Int) : Option Int := offsetToLineGo offset [] bc

/-- `line_to_offset` (`extools.rs:272-284`) -/
def lineToOffset (bc : List Instr) (line : Int) : Option Int :=
  match bc with
  | [] => none
  | i :: is =>
    if i.mnemonic = dbgLineno ∧ parseLineno i.comment = some line then some i.offset
    else lineToOffset is line

/-! ## Stack frames -/

/-- a frame of the call stack (`extools_types.rs:58-72`), as far as it decides where the frame is -/
structure ExFrame where
  proc : Text
  ov : Nat
  offset : Int

/-- where a stack frame is shown: nothing, `stddef.dm`, or a file -/
inductive Source where
  | none
  | stddef
  | file (path : Path)
deriving DecidableEq

/-- the source and line of a frame of `StackTrace` (`debugger/mod.rs:967-1026`, extools).  `stddef` is the
tree of `stddef.dm` if its text is known, `bc` the byte code of the proc of the frame. -/
def Db.frame (db : Db) (stddef : Option Tree) (bc : List Instr) (fr : ExFrame) : Source × Int :=
  let (src, line) : Source × Int :=
    match db.tree.getProc fr.proc fr.ov with
    | none => (.none, 0)
    | some loc =>
      if loc.isBuiltins then
        match stddef.bind fun t => t.getProc fr.proc fr.ov with
        | some l => (.stddef, l.line)
        | none => (.none, 0)
      else (.file (db.root ++ (db.getPath loc.file).getD []), loc.line)
  match offsetToLine bc fr.offset with
  | some l => (src, l)
  | none => (src, line)

end Verif.Debug
