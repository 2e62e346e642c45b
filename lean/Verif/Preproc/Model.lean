import Verif.Context.Model
import Verif.Lexer.Model

/-!
# Model of `crates/dreammaker/src/preprocessor.rs`

What is kept: the include stack, macro definitions and their history, conditional compilation, macro
expansion (constants, functions, `#`, `##`, variadics), `#include`/`#pragma multiple`, doc comments,
the output queue and the list of registered diagnostics.

What is abstracted:
* a file on the include stack is the list of located tokens its `Lexer` still has to hand out (the
  lexer is an independent iterator; it is modelled in `Verif.Lexer`);
* everything that depends on the file system, on the expression parser and on `Display` of tokens is
  a field of `Env`;
* annotations and `danger_idents` are write-only and left out;
* diagnostics carry their kind, not their location or text.

Panics: the underflow of `in_interp_string -= 1` sets the sticky flag `panic`.
-/

namespace Verif.Preproc

open Verif.Context (Location)
open Verif.Lexer (Tok Punct DocTarget CommentKind)

instance instDecEqLocation : DecidableEq Location :=
  inferInstanceAs (DecidableEq (Fin 65536 × Fin 4294967296 × Fin 65536))

abbrev Name := List Char
/-- paths are opaque -/
abbrev Path := Nat

/-- `LocatedToken` (lexer.rs:364-367) -/
structure LTok where
  loc : Location
  tok : Tok
deriving DecidableEq

/-- a punctuation token -/
def pc (s : String) : Tok := .punct ⟨s.toList, false⟩
/-- `Token::Punct(Punctuation::Newline)` -/
def newline : Tok := .punct ⟨['\n'], false⟩
/-- `Token::Punct(Punctuation::Hash)` -/
def hash : Tok := .punct ⟨['#'], false⟩
/-- `Token::Punct(Punctuation::TokenPaste)` -/
def tokenPaste : Tok := .punct ⟨['#', '#'], false⟩
/-- `Token::Punct(Punctuation::LParen)` -/
def lparen : Tok := .punct ⟨['('], false⟩
/-- `Token::Punct(Punctuation::RParen)` -/
def rparen : Tok := .punct ⟨[')'], false⟩
/-- `Token::Punct(Punctuation::Comma)` -/
def comma : Tok := .punct ⟨[','], false⟩
/-- `Token::Punct(Punctuation::Ellipsis)` -/
def ellipsis : Tok := .punct ⟨['.', '.', '.'], false⟩

/-- `Token::is_whitespace` (lexer.rs:311-319) -/
def isWhitespace (t : Tok) : Bool :=
  t = .punct ⟨['\t'], false⟩ || t = newline || t = .punct ⟨[' '], false⟩

/-- `Define` (preprocessor.rs:25-36), without the documentation -/
inductive Define
  | constant (subst : List Tok)
  | function (params : List Name) (subst : List Tok) (variadic : Bool)
deriving DecidableEq

/-! ## DefineMap (preprocessor.rs:172-238) -/

/-- `DefineMap { inner: HashMap<Ident, Vec<(Location, Define)>> }` (preprocessor.rs:177-180): an
association list; a vector is a list with its last element first. -/
structure DefineMap where
  inner : List (Name × List (Location × Define)) := []
deriving DecidableEq

namespace DefineMap

/-- `self.inner.get(key)` -/
def find (m : DefineMap) (key : Name) : Option (List (Location × Define)) := m.inner.lookup key

/-- `len` (preprocessor.rs:191-193) -/
def len (m : DefineMap) : Nat := m.inner.length
/-- `is_empty` (preprocessor.rs:197-199) -/
def isEmpty (m : DefineMap) : Bool := m.inner.isEmpty
/-- `contains_key` (preprocessor.rs:202-204) -/
def containsKey (m : DefineMap) (key : Name) : Bool :=
  match m.find key with
  | some v => !v.isEmpty
  | none => false
/-- `get` (preprocessor.rs:207-209) -/
def get (m : DefineMap) (key : Name) : Option (Location × Define) := (m.find key).bind List.head?

/-- overwrite the vector stored under a key that is present -/
def setInner (l : List (Name × List (Location × Define))) (key : Name)
    (v : List (Location × Define)) : List (Name × List (Location × Define)) :=
  l.map fun p => if p.1 = key then (p.1, v) else p

/-- `insert` (preprocessor.rs:215-223) -/
def insert (m : DefineMap) (key : Name) (value : Location × Define) : Option Location × DefineMap :=
  match m.find key with
  | some stack => (stack.head?.map Prod.fst, ⟨setInner m.inner key (value :: stack)⟩)
  | none => (none, ⟨(key, [value]) :: m.inner⟩)

/-- `remove` (preprocessor.rs:227-235) -/
def remove (m : DefineMap) (key : Name) : Option (Location × Define) × DefineMap :=
  match m.find key with
  | none => (none, m)
  | some stack =>
    (stack.head?,
      if stack.tail.isEmpty then ⟨m.inner.filter fun p => p.1 ≠ key⟩
      else ⟨setInner m.inner key stack.tail⟩)

end DefineMap

/-! ## The include stack -/

/-- `Include` (preprocessor.rs:264-275) -/
inductive Include
  | file (path : Path) (toks : List LTok)
  | expansion (loc : Location) (toks : List Tok)
deriving DecidableEq

/-- how many tokens an include still holds -/
def Include.size : Include → Nat
  | .file _ ts => ts.length
  | .expansion _ ts => ts.length

/-- `IncludeStack::next` (preprocessor.rs:325-353); the top of the stack is the head -/
def stackNext : List Include → Option (LTok × List Include)
  | [] => none
  | .file p (t :: ts) :: st => some (t, .file p ts :: st)
  | .file _ [] :: st => stackNext st
  | .expansion l (t :: ts) :: st => some (⟨l, t⟩, .expansion l ts :: st)
  | .expansion _ [] :: st => stackNext st

/-- `top_file_path` (preprocessor.rs:308-315), also the loops at 585-592 and 1136-1141 -/
def topFile : List Include → Option Path
  | [] => none
  | .file p _ :: _ => some p
  | .expansion _ _ :: st => topFile st

/-- `in_expansion` is only used by the annotations. -/
def MAX_RECURSION_DEPTH : Nat := 32 -- preprocessor.rs:20

/-! ## Conditional compilation -/

/-- `Ifdef` (preprocessor.rs:359-364) -/
structure Ifdef where
  loc : Location
  active : Bool
  chainActive : Bool
deriving DecidableEq

/-- `Ifdef::new` (preprocessor.rs:367-373) -/
def Ifdef.new (loc : Location) (active : Bool) : Ifdef := ⟨loc, active, active⟩
/-- `Ifdef::else_` (preprocessor.rs:374-380) -/
def Ifdef.else_ (i : Ifdef) (loc : Location) : Ifdef := ⟨loc, !i.chainActive, true⟩
/-- `Ifdef::else_if` (preprocessor.rs:381-387) -/
def Ifdef.elseIf (i : Ifdef) (loc : Location) (active : Bool) : Ifdef :=
  ⟨loc, !i.chainActive && active, i.chainActive || active⟩

/-! ## The preprocessor -/

/-- the result of searching an `#include` path (preprocessor.rs:809-862): the first existing candidate,
classified by extension -/
inductive Resolved
  | notFound
  | badExtension
  | dmm (p : Path)
  | dmf (p : Path)
  | dms (p : Path)
  | dm (p : Path)
deriving DecidableEq

/-- What the preprocessor gets from outside: the environment file, the file system, the expression
evaluator and token display. -/
structure Env where
  /-- `env_file` -/
  envFile : Path
  /-- search of an `#include`d path relative to the file it appears in and to the environment -/
  resolve : Path → List Char → Resolved
  /-- contents of a file, as the tokens of its lexer; `none`: cannot be opened -/
  openFile : Path → Option (List LTok)
  /-- `context.register_file(path.strip_prefix(…))`: ids are stable and injective (C07) -/
  fileId : Path → Fin 65536
  /-- `path.display()` -/
  pathText : Path → List Char
  /-- `parse_expression` and `preprocessor_evaluate(…).to_bool()`; `none`: an error -/
  eval : List LTok → DefineMap → Option Bool
  /-- `Display` of tokens (lexer.rs) -/
  display : Tok → List Char

/-- kinds of diagnostics -/
inductive Err
  | eof | unexpectedToken | unmatchedEndif | unmatchedElse | unmatchedElif | evalError
  | badExtension | includeNotFound | openFailed | duplicateInclude
  | variadicNotLast | malformedParams | docTarget | macroRedefined | undefUndefined
  | warnDirective | errorDirective | unknownDirective | recursionLimit | wrongArgCount
  | cannotStringify | unterminatedIf
deriving DecidableEq, Repr

/-- `Preprocessor` (preprocessor.rs:391-418).  Stacks have their top first; `output` has its front
first; `history`, `ifdefHist`, `maps`, `errs` list insertions with the newest first. -/
structure PP where
  stack : List Include
  incLocs : List (Fin 65536) := []
  multi : List (Fin 65536) := []
  lastLoc : Location := Location.default
  output : List LTok := []
  ifdefs : List Ifdef := []
  ifdefHist : List ((Location × Location) × Bool) := []
  history : List ((Location × Location) × Name × Define) := []
  defines : DefineMap := {}
  maps : List Path := []
  skins : List Path := []
  scripts : List Path := []
  interp : Nat := 0
  docsIn : List LTok := []
  errs : List Err := []
  panic : Bool := false
deriving DecidableEq

/-- The result of a computation with fuel: `.error s` means that the fuel ran out in state `s`. -/
abbrev Res := Except PP PP

namespace PP

/-- `context.register_error(…)` -/
def err (s : PP) (e : Err) : PP := { s with errs := e :: s.errs }

/-- `push_output` (preprocessor.rs:725-728) -/
def push (s : PP) (t : Tok) : PP := { s with output := s.output ++ [⟨s.lastLoc, t⟩] }

/-- `inner_next` (preprocessor.rs:730-732) -/
def innerNext (s : PP) : Option (Location × Tok × PP) :=
  (stackNext s.stack).map fun r => (r.1.loc, r.1.tok, { s with stack := r.2 })

/-- when the include stack has run dry, it has been emptied -/
def drained (s : PP) : PP := { s with stack := [] }

/-- the macro `next!` (preprocessor.rs:737-747) in continuation style: at the end of input,
`return Err(self.error("unexpected EOF"))`, which the caller registers -/
def withNext (s : PP) (k : Location → Tok → PP → Res) : Res :=
  match s.innerNext with
  | none => .ok (s.drained.err .eof)
  | some (l, t, s') => k l t s'

/-- `is_disabled` (preprocessor.rs:611-613) -/
def isDisabled (s : PP) : Bool := s.ifdefs.any fun i => !i.active

/-- `pop_ifdef` (preprocessor.rs:615-620) -/
def popIfdef (s : PP) : Option (Ifdef × PP) :=
  match s.ifdefs with
  | [] => none
  | i :: is =>
    some (i, { s with ifdefs := is, ifdefHist := ((i.loc, s.lastLoc), i.active) :: s.ifdefHist })

/-- push an `Ifdef` -/
def pushIfdef (s : PP) (i : Ifdef) : PP := { s with ifdefs := i :: s.ifdefs }

/-- `flush_docs` (preprocessor.rs:672-680) -/
def flushDocs (s : PP) : PP := { s with output := s.output ++ s.docsIn, docsIn := [] }

/-- `in_environment` (preprocessor.rs:585-592) -/
def inEnvironment (env : Env) (s : PP) : Bool := topFile s.stack = some env.envFile

/-- `is_defined` (preprocessor.rs:594-599) -/
def isDefined (env : Env) (s : PP) (name : Name) : Bool :=
  if name = "__MAIN__".toList then s.inEnvironment env else s.defines.containsKey name

/-- `move_to_history` (preprocessor.rs:601-604) -/
def moveToHistory (s : PP) (name : Name) (previous : Location × Define) : PP :=
  { s with history := ((previous.1, s.lastLoc), name, previous.2) :: s.history }

/-- `evaluate_inner` and `evaluate` (preprocessor.rs:622-665), given the loop `pump` of lines 624-635 -/
def evaluateOf (env : Env) (pump : PP → Res) (s : PP) : Except PP (Bool × PP) :=
  match pump s with
  | .error s => .error s
  | .ok s =>
    if s.isDisabled then .ok (false, { s with output := [] })
    else
      match env.eval s.output s.defines with
      | some b => .ok (b, { s with output := [] })
      | none => .ok (false, { s with output := [] }.err .evalError)

/-- `prepare_include_file` and the `FileType::DM` arm (preprocessor.rs:685-723, 873-884) -/
def includeFile (env : Env) (s : PP) (p : Path) : PP :=
  match env.openFile p with
  | none => s.err .openFailed
  | some toks =>
    let id := env.fileId p
    if id ∈ s.incLocs then
      if id ∈ s.multi then { s.push newline with stack := .file p toks :: s.stack }
      else s.err .duplicateInclude
    else { s.push newline with stack := .file p toks :: s.stack, incLocs := id :: s.incLocs }

/-- the `include` directive (preprocessor.rs:801-893); `self.include_stack.top_file_path()` is the
topmost file -/
def doInclude (env : Env) (s : PP) (path : List Char) : PP :=
  match env.resolve ((topFile s.stack).getD 0) path with
  | .notFound => s.err .includeNotFound
  | .badExtension => s.err .badExtension
  | .dmm p => { s with maps := p :: s.maps }
  | .dmf p => { s with skins := p :: s.skins }
  | .dms p => { s with scripts := p :: s.scripts }
  | .dm p => s.includeFile env p

/-- number of tokens on the include stack -/
def size (s : PP) : Nat := (s.stack.map Include.size).sum

/-- `#define` of a disabled region (preprocessor.rs:895-903): skip to the end of the line. The fuel
`size + 1` is never exhausted. -/
def skipLine : Nat → PP → (PP → Res) → Res
  | 0, s, _ => .ok { s with panic := true }
  | n + 1, s, k => s.withNext fun _ t s => if t = newline then k s else skipLine n s k

/-- the parameter list of a `#define` (preprocessor.rs:925-957); the continuation gets the parameters
in order -/
def readParams : Nat → PP → List Name → (List Name → Bool → PP → Res) → Res
  | 0, s, _, _ => .ok { s with panic := true }
  | n + 1, s, params, k =>
    s.withNext fun _ t s =>
      -- `Token::Ident(name, _)` or `...`
      let cont (params : List Name) (variadic : Bool) : Res :=
        s.withNext fun _ t s =>
          if t = comma then
            (if variadic then .ok (s.err .variadicNotLast) else readParams n s params k)
          else if t = rparen then k params variadic s
          else if t = ellipsis then
            s.withNext fun _ t s => if t = rparen then k params true s else .ok (s.err .variadicNotLast)
          else .ok (s.err .malformedParams)
      match t with
      | .ident name _ => cont (params ++ [name]) false
      | _ =>
        if t = ellipsis then cont (params ++ ["__VA_ARGS__".toList]) true
        else .ok (s.err .malformedParams)

/-- a doc comment after a `#define` that has the wrong target (preprocessor.rs:961-974, 984-997) -/
def docHint (s : PP) (t : DocTarget) : PP :=
  match t with
  | .enclosingItem => s
  | .followingItem => s.err .docTarget

/-- the rest of the line of a `#define` (preprocessor.rs:980-1003); the continuation gets the
substitution in order -/
def readSubst : Nat → PP → List Tok → (List Tok → PP → Res) → Res
  | 0, s, _, _ => .ok { s with panic := true }
  | n + 1, s, subst, k =>
    s.withNext fun _ t s =>
      if t = newline then k subst s
      else
        match t with
        | .doc _ target _ => readSubst n (s.docHint target) subst k
        | _ => readSubst n s (subst ++ [t]) k

/-- `Define::Constant` or `Define::Function` (preprocessor.rs:1005-1017) -/
def mkDefine (params : List Name) (subst : List Tok) (variadic : Bool) : Define :=
  if params.isEmpty then .constant subst else .function params subst variadic

/-- the end of the `define` directive (preprocessor.rs:1018-1042) and the final newline (1110-1112) -/
def finishDefine (env : Env) (name : Name) (loc : Location) (d : Define) (s : PP) : PP :=
  let s :=
    if name ≠ "DEBUG".toList || s.inEnvironment env then
      let s' := { s with defines := (s.defines.insert name (loc, d)).2 }
      match (s.defines.insert name (loc, d)).1 with
      | some _ => if name ≠ "FILE_DIR".toList then s'.err .macroRedefined else s'
      | none => s'
    else s
  s.push newline

/-- the `define` directive (preprocessor.rs:904-1043) -/
def doDefine (env : Env) (s : PP) : Res :=
  let s := { s with docsIn := [] }
  s.withNext fun l t s =>
    match t with
    | .ident name ws =>
      s.withNext fun _ t s =>
        if t = lparen ∧ ws = false then
          s.readParams (s.size + 1) [] fun params variadic s =>
            s.readSubst (s.size + 1) [] fun subst s =>
              .ok (s.finishDefine env name l (mkDefine params subst variadic))
        else if t = newline then .ok (s.finishDefine env name l (mkDefine [] [] false))
        else
          match t with
          | .doc _ target _ =>
            (s.docHint target).readSubst (s.size + 1) [] fun subst s =>
              .ok (s.finishDefine env name l (mkDefine [] subst false))
          | _ =>
            s.readSubst (s.size + 1) [t] fun subst s =>
              .ok (s.finishDefine env name l (mkDefine [] subst false))
    | _ => .ok (s.err .unexpectedToken)

/-- the `undef` directive (preprocessor.rs:1045-1061) and the final newline -/
def doUndef (s : PP) : Res :=
  s.withNext fun _ t s =>
    match t with
    | .ident name _ =>
      s.withNext fun _ t s =>
        if t = newline then
          .ok <| push (t := newline) <|
            match (s.defines.remove name).1 with
            | some previous =>
              { s with defines := (s.defines.remove name).2 }.moveToHistory name previous
            | none => s.err .undefUndefined
        else .ok (s.err .unexpectedToken)
    | _ => .ok (s.err .unexpectedToken)

/-- the `ifdef` and `ifndef` directives (preprocessor.rs:768-781) and the final newline -/
def doIfdef (env : Env) (s : PP) (want : Bool) : Res :=
  s.withNext fun _ t s =>
    match t with
    | .ident name _ =>
      s.withNext fun _ t s =>
        if t = newline then
          .ok ((s.pushIfdef (Ifdef.new s.lastLoc (s.isDefined env name == want))).push newline)
        else .ok (s.err .unexpectedToken)
    | _ => .ok (s.err .unexpectedToken)

/-- the directives -/
inductive Dir
  | endif | else_ | ifdef | ifndef | if_ | elif | include | define | undef | warn | error | pragma
  | unknown
deriving DecidableEq

/-- the names of the directives, as in the arms of `match &ident[..]` -/
def dirNames : List (Name × Dir) :=
  [("endif".toList, .endif), ("else".toList, .else_), ("ifdef".toList, .ifdef),
   ("ifndef".toList, .ifndef), ("if".toList, .if_), ("elif".toList, .elif),
   ("include".toList, .include), ("define".toList, .define), ("undef".toList, .undef),
   ("warn".toList, .warn), ("error".toList, .error), ("pragma".toList, .pragma)]

/-- the arm of `match &ident[..]` (preprocessor.rs:756-1109) -/
def dirOf (ident : Name) : Dir := (dirNames.lookup ident).getD .unknown

/-- `include` outside disabled regions (preprocessor.rs:801-893) -/
def readInclude (env : Env) (s : PP) : Res :=
  s.withNext fun _ t s =>
    match t with
    | .str path =>
      s.withNext fun _ t s =>
        if t = newline then .ok (s.doInclude env path) else .ok (s.err .unexpectedToken)
    | _ => .ok (s.err .unexpectedToken)

/-- `warn` and `error` outside disabled regions (preprocessor.rs:1063-1078) -/
def readMessage (e : Err) (s : PP) : Res :=
  s.withNext fun _ t s =>
    match t with
    | .str _ => .ok ((s.err e).push newline)
    | _ => .ok (s.err .unexpectedToken)

/-- `pragma` outside disabled regions (preprocessor.rs:1080-1087) -/
def readPragma (s : PP) : Res :=
  s.withNext fun l t s =>
    match t with
    | .ident text _ =>
      if text = "multiple".toList then .ok ({ s with multi := l.file :: s.multi }.push newline)
      else .ok (s.push newline)
    | _ => .ok (s.err .unexpectedToken)

/-- the directives (preprocessor.rs:756-1113); `ev` is `evaluate` -/
def onDirective (env : Env) (ev : PP → Except PP (Bool × PP)) (disabled : Bool) (s : PP)
    (d : Dir) : Res :=
  match d with
  | .endif =>
    match s.popIfdef with
    | none => .ok (s.err .unmatchedEndif)
    | some (_, s) => .ok (s.push newline)
  | .else_ =>
    match s.popIfdef with
    | none => .ok (s.err .unmatchedElse)
    | some (last, s) => .ok ((s.pushIfdef (last.else_ s.lastLoc)).push newline)
  | .ifdef => s.doIfdef env true
  | .ifndef => s.doIfdef env false
  | .if_ =>
    match ev s with
    | .error s => .error s
    | .ok (b, s) => .ok ((s.pushIfdef (Ifdef.new s.lastLoc b)).push newline)
  | .elif =>
    match s.popIfdef with
    | none => .ok (s.err .unmatchedElif)
    | some (last, s) =>
      match ev s with
      | .error s => .error s
      | .ok (b, s) => .ok ((s.pushIfdef (last.elseIf s.lastLoc b)).push newline)
  | .include => if disabled then .ok (s.push newline) else s.readInclude env
  | .define =>
    if disabled then s.skipLine (s.size + 1) fun s => .ok (s.push newline) else s.doDefine env
  | .undef => if disabled then .ok (s.push newline) else s.doUndef
  | .warn => if disabled then .ok (s.push newline) else s.readMessage .warnDirective
  | .error => if disabled then .ok (s.push newline) else s.readMessage .errorDirective
  | .pragma => if disabled then .ok (s.push newline) else s.readPragma
  | .unknown => .ok (s.err .unknownDirective)

/-- after a `#` (preprocessor.rs:754-756) -/
def directive (env : Env) (ev : PP → Except PP (Bool × PP)) (disabled : Bool) (s : PP) : Res :=
  s.withNext fun _ t s =>
    match t with
    | .ident ident _ => s.onDirective env ev disabled (dirOf ident)
    | _ => .ok (s.err .unexpectedToken)

/-- reading the arguments of a function-like macro (preprocessor.rs:1224-1250); `args` and `arg` are
in order -/
def readArgs : Nat → PP → Nat → List (List Tok) → List Tok → (List (List Tok) → PP → Res) →
    Res
  | 0, s, _, _, _, _ => .ok { s with panic := true }
  | n + 1, s, parens, args, arg, k =>
    s.withNext fun _ t s =>
      if t = lparen then readArgs n s (parens + 1) args (arg ++ [t]) k
      else if t = rparen then
        (if parens = 0 then k (args ++ [arg]) s
        else readArgs n s (parens - 1) args (arg ++ [t]) k)
      else if t = comma ∧ parens = 0 then readArgs n s parens (args ++ [arg]) [] k
      else readArgs n s parens args (arg ++ [t]) k

/-- the arguments of a variadic macro (preprocessor.rs:1252-1262) -/
def fixVariadic (params : List Name) (variadic : Bool) (args : List (List Tok)) : List (List Tok) :=
  if variadic then
    if args.length > params.length then
      args.take (params.length - 1) ++ [List.intercalate [comma] (args.drop (params.length - 1))]
    else if args.length + 1 = params.length then args ++ [[]]
    else args
  else args

/-- `params.iter().position(|x| *x == ident)` and `args[i]` -/
def argOf (params : List Name) (args : List (List Tok)) (name : Name) : Option (List Tok) :=
  (params.idxOf? name).map fun i => args.getD i []

/-- the stringified argument (preprocessor.rs:1342-1355) -/
def stringify (env : Env) (arg : List Tok) : List Char :=
  arg.foldl (fun str t => (if str.isEmpty then str else str ++ [' ']) ++ env.display t) []

/-- `##` applied to the expansion so far and the next token (preprocessor.rs:1279-1336) -/
def pasteStep (params : List Name) (args : List (List Tok)) (out : List Tok) (second : Option Tok) :
    List Tok :=
  match out.getLast?, second with
  | some (.ident first ws1), some (.ident paramName ws) =>
    match argOf params args paramName with
    | some (.ident paramIdent ws' :: rest) => out.dropLast ++ .ident (first ++ paramIdent) ws' :: rest
    | some (.int v :: rest) => out.dropLast ++ .ident (first ++ (Nat.repr v).toList) ws :: rest
    | some (other :: rest) => out.dropLast ++ .ident first ws1 :: other :: rest
    | some [] => out.dropLast ++ [.ident first ws1]
    | none => out.dropLast ++ [.ident (first ++ paramName) ws]
  | _, some (.ident name ws) =>
    match argOf params args name with
    | some a => out ++ a
    | none => out ++ [.ident name ws]
  | _, some t => out ++ [t]
  | _, none => out

/-- pasting the arguments into the substitution (preprocessor.rs:1267-1385); `none` is the error
"can't stringify" -/
def paste (env : Env) (params : List Name) (args : List (List Tok)) :
    List Tok → List Tok → Option (List Tok)
  | [], out => some out
  | [t], out =>
    match t with
    | .ident name ws =>
      match argOf params args name with
      | some a => some (out ++ a)
      | none => some (out ++ [.ident name ws])
    | t =>
      if t = tokenPaste then some (pasteStep params args out none)
      else if t = hash then none
      else some (out ++ [t])
  | t :: u :: rest, out =>
    match t with
    | .ident name ws =>
      match argOf params args name with
      | some a => paste env params args (u :: rest) (out ++ a)
      | none => paste env params args (u :: rest) (out ++ [.ident name ws])
    | t =>
      if t = tokenPaste then paste env params args rest (pasteStep params args out (some u))
      else if t = hash then
        match u with
        | .ident argname _ =>
          match argOf params args argname with
          | some a => paste env params args rest (out ++ [.str (stringify env a)])
          | none => none
        | _ => none
      else paste env params args (u :: rest) (out ++ [t])

/-- `in_interp_string` bookkeeping (preprocessor.rs:1212-1214, 1398-1399) -/
def countInterp (s : PP) (t : Tok) : PP :=
  match t with
  | .interpBegin _ => { s with interp := s.interp + 1 }
  | .interpEnd _ => { s with interp := s.interp - 1, panic := s.panic || s.interp == 0 }
  | _ => s

/-- pushing an expansion (preprocessor.rs:1186-1192, 1387-1392) -/
def expand (s : PP) (toks : List Tok) : PP :=
  { s with stack := .expansion s.lastLoc toks :: s.stack }

/-- a use of a function-like macro (preprocessor.rs:1194-1393) -/
def callMacro (env : Env) (s : PP) (ident : Name) (params : List Name) (subst : List Tok)
    (variadic : Bool) : Res :=
  s.withNext fun _ t s =>
    if t = lparen then
      s.readArgs (s.size + 1) 0 [] [] fun args s =>
        let args := fixVariadic params variadic args
        if args.length ≠ params.length then .ok (s.err .wrongArgCount)
        else
          match paste env params args subst [] with
          | none => .ok (s.err .cannotStringify)
          | some toks => .ok (s.expand toks)
    else .ok (((s.push (.ident ident false)).countInterp t).push t)

/-- the special case inside `defined(` (preprocessor.rs:1158-1176) -/
def afterDefined (s : PP) : Bool :=
  match s.output.reverse with
  | p :: d :: _ =>
    p.tok = lparen && (match d.tok with
      | .ident n _ => n = "defined".toList
      | _ => false)
  | _ => false

/-- the end of `real_next` (preprocessor.rs:1406-1411): the token is itself -/
def emitSelf (s : PP) (t : Tok) : PP :=
  (if isWhitespace t then s else s.flushDocs).push t

/-- an identifier outside disabled regions (preprocessor.rs:1117-1396) -/
def onIdent (env : Env) (s : PP) (ident : Name) (ws : Bool) : Res :=
  let s := s.flushDocs
  if ident = "__FILE__".toList then
    match topFile s.stack with
    | some p => .ok (s.push (.str (env.pathText p)))
    | none => .ok (s.push (.str []))
  else if ident = "__LINE__".toList then .ok (s.push (.int s.lastLoc.line.val))
  else if s.afterDefined then .ok (s.push (.ident ident ws))
  else
    match s.defines.get ident with
    | none => .ok (s.emitSelf (.ident ident ws))
    | some (_, d) =>
      if s.stack.length > MAX_RECURSION_DEPTH then
        .ok ((s.err .recursionLimit).emitSelf (.ident ident ws))
      else
        match d with
        | .constant subst => .ok (s.expand subst)
        | .function params subst variadic => s.callMacro env ident params subst variadic

/-- `real_next` (preprocessor.rs:734-1412), with the error it returns registered as its two callers do
(`ev` is `evaluate`) -/
def realNextWith (env : Env) (ev : PP → Except PP (Bool × PP)) (s : PP) (read : Tok)
    (insideCondition : Bool) : Res :=
  let disabled := !insideCondition && s.isDisabled
  if read = hash then s.directive env ev disabled
  else if disabled then .ok s
  else
    match read with
    | .ident ident ws => s.onIdent env ident ws
    | .doc k .followingItem text =>
      .ok { s with docsIn := s.docsIn ++ [⟨s.lastLoc, .doc k .followingItem text⟩] }
    | t => .ok ((s.countInterp t).emitSelf t)

/-- the loop of `evaluate_inner` (preprocessor.rs:624-635) -/
def pump (env : Env) : Nat → PP → Res
  | 0, s => .error s
  | n + 1, s =>
    match s.innerNext with
    | none => .ok s.drained
    | some (l, t, s) =>
      let s := { s with lastLoc := l }
      if t = newline then .ok s
      else
        match s.realNextWith env (evaluateOf env (pump env n)) t true with
        | .error s => .error s
        | .ok s => pump env n s

/-- `real_next` -/
def realNext (env : Env) (n : Nat) (s : PP) (t : Tok) (insideCondition : Bool) : Res :=
  s.realNextWith env (evaluateOf env (pump env n)) t insideCondition

/-- the end of input (preprocessor.rs:1436-1440): unterminated `#if`s are popped and reported -/
def closeIfdefs (s : PP) : PP :=
  { s with ifdefs := [],
           ifdefHist := (s.ifdefs.map fun i => ((i.loc, s.lastLoc), i.active)).reverse ++ s.ifdefHist,
           errs := List.replicate s.ifdefs.length Err.unterminatedIf ++ s.errs }

/-- the iterator run to its end (preprocessor.rs:1416-1444): all tokens delivered, and the final
state.  Each round delivers what is queued, then reads and processes one input token. -/
def run (env : Env) : Nat → PP → Except PP (List LTok × PP)
  | 0, s => .error s
  | n + 1, s =>
    match { s with output := [] }.innerNext with
    | none => .ok (s.output, { s with output := [] }.drained.closeIfdefs)
    | some (l, t, s') =>
      match { s' with lastLoc := l }.realNext env n t false with
      | .error e => .error e
      | .ok s'' =>
        match run env n s'' with
        | .error e => .error e
        | .ok r => .ok (s.output ++ r.1, r.2)

/-- `Preprocessor::new`/`from_buffer` (preprocessor.rs:430-496): only the environment file is on the
stack; `defines` are the builtin ones -/
def init (env : Env) (builtins : DefineMap) (toks : List LTok) : PP :=
  { stack := [.file env.envFile toks], defines := builtins }

end PP

end Verif.Preproc
