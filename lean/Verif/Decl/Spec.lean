import Verif.Decl.Model

/-!
# What declarations say

The written forms of declarations (`Src`, with their tokens), and what they say (`Fact`): blocks only save writing,
the full name of an entry is the names of the blocks around it followed by its own.  Nothing here follows the parser;
only the types of what is registered and the operations on the tree (`Env.subtype`, `Env.declare`, `Env.override`,
`Env.proc`) are those of the model.
-/

namespace Verif.Decl

open Verif.Objtree (Ident mget)

variable {E C : Type}

/-! ## Names -/

/-- the words that say which flags a variable has -/
def flagWords : List Ident :=
  ["global", "static", "const", "tmp", "final", "SpacemanDMM_final", "SpacemanDMM_private",
    "SpacemanDMM_protected"].map kw

/-- the flags among some words -/
def flagsOf (ws : List Ident) : VarFlags :=
  { static := decide ((kw "global") ∈ ws ∨ (kw "static") ∈ ws)
    const := decide ((kw "const") ∈ ws)
    tmp := decide ((kw "tmp") ∈ ws)
    final := decide ((kw "final") ∈ ws ∨ (kw "SpacemanDMM_final") ∈ ws)
    priv := decide ((kw "SpacemanDMM_private") ∈ ws)
    prot := decide ((kw "SpacemanDMM_protected") ∈ ws) }

/-- `var`, `proc` and `verb` separate the path of a type from what is declared in it -/
def keywords : List Ident := ["var", "proc", "verb"].map kw

/-- what a full name is in -/
inductive Mode where
  /-- a type -/
  | type
  /-- the variables of a type, with these words after `var` -/
  | vars (words : List Ident)
  /-- the procs of a type, with these words after `proc` or `verb` -/
  | procs (kind : ProcKind) (words : List Ident)
deriving DecidableEq

/-- the type part of a full name, and what the rest is in -/
def read (full : List Ident) : List Ident × Mode :=
  let tp := full.takeWhile (fun w => decide (w ∉ keywords))
  (tp,
    match full.drop tp.length with
    | [] => .type
    | k :: ws =>
      if k = (kw "var") then .vars ws else if k = (kw "proc") then .procs .proc ws else .procs .verb ws)

/-- only flags come between `proc` and the name, and `var` comes once -/
def Mode.plain : Mode → Prop
  | .type => True
  | .vars ws => (kw "var") ∉ ws
  | .procs _ ws => ∀ w ∈ ws, w = (kw "final")

/-- the type of a variable declared with some words between `var` and its name -/
def varType (ws : List Ident) : VarTy := { flags := flagsOf ws, path := ws.filter (fun w => decide (w ∉ flagWords)) }

/-! ## Written forms -/

/-- a path, as written: `/a/b/c`, `a/b/c` or with a `/` at the end -/
structure PathW where
  abs : Bool := false
  dirs : List Ident := []
  last : Ident
  trail : Bool := false

def PathW.toks (p : PathW) : List Tok :=
  (if p.abs then [.slash] else []) ++ (p.dirs.flatMap fun d => [.ident d, .slash]) ++ [.ident p.last]
    ++ (if p.trail then [.slash] else [])

def PathW.names (p : PathW) : List Ident := p.dirs ++ [p.last]

/-- an expression, as written, and its value -/
structure ExprW (E : Type) where
  toks : List Tok
  val : E

/-- what may come after an expression in a declaration -/
def Stop : List Tok → Prop
  | .semi :: _ | .rbrace :: _ | .rbracket :: _ | .rparen :: _ | .comma :: _ => True
  | .ident s :: _ => s = (kw "as")
  | _ => False

/-- the expression parser reads exactly this expression, whatever comes after it -/
def ExprW.Ok (X : Parsers E C) (e : ExprW E) : Prop :=
  ∀ rest, Stop rest → X.expr (e.toks ++ rest) = some (some (e.val, rest))

/-- an `as` clause -/
inductive AsW where
  | none
  | parens
  | names (first : Ident) (rest : List Ident)

def AsW.toks : AsW → List Tok
  | .none => []
  | .parens => [.ident (kw "as"), .lparen, .rparen]
  | .names first rest => .ident (kw "as") :: .ident first :: rest.flatMap fun n => [.bitOr, .ident n]

def AsW.val : AsW → Option InTy
  | .none => Option.none
  | .parens => some []
  | .names first rest => some (first :: rest)

def AsW.Ok : AsW → Prop
  | .names first rest => ∀ n ∈ first :: rest, n ∈ inputNames
  | _ => True

/-- an `as` clause and an `in` clause -/
structure SpecW (E : Type) where
  as_ : AsW := .none
  in_ : Option (ExprW E) := none

def SpecW.toks (s : SpecW E) : List Tok :=
  s.as_.toks ++ match s.in_ with
    | none => []
    | some e => .in_ :: e.toks

def SpecW.Ok (X : Parsers E C) (s : SpecW E) : Prop := s.as_.Ok ∧ ∀ e ∈ s.in_, e.Ok X

/-- after an expression `in` needs `as` before it: `a in b` is an expression -/
def SpecW.AfterExpr (s : SpecW E) : Prop := s.in_.isSome → s.as_.val.isSome

/-- list suffixes `[]`, `[10]` -/
def sufToks (suf : List (Option (ExprW E))) : List Tok :=
  suf.flatMap fun s => [.lbracket] ++ (match s with | none => [] | some e => e.toks) ++ [.rbracket]

/-- between `[` and `]` there is an expression or nothing -/
def SufOk (X : Parsers E C) (suf : List (Option (ExprW E))) : Prop :=
  (∀ s ∈ suf, ∀ e ∈ s, e.Ok X) ∧ (none ∈ suf → ∀ rest, X.expr (.rbracket :: rest) = some none)

/-- `var/L[]` is `var/list/L` -/
def withList (suf : List (Option (ExprW E))) (t : VarTy) : VarTy :=
  match suf with
  | [] => t
  | _ :: _ => { t with path := (kw "list") :: t.path }

/-- `var/L[2][][3]` starts as `new /list(2, 3)` -/
def sufInit (suf : List (Option (ExprW E))) : Option (Init E) :=
  match suf.filterMap id with
  | [] => none
  | e :: es => some (.newList (e.val :: es.map ExprW.val))

/-- an initial value -/
def initToks : Option (ExprW E) → List Tok
  | none => []
  | some e => .assign :: e.toks

/-- a parameter -/
inductive ParamW (E : Type) where
  | ellipsis
  | param (path : PathW) (suf : List (Option (ExprW E))) (init : Option (ExprW E)) (spec : SpecW E)

def ParamW.toks : ParamW E → List Tok
  | .ellipsis => [.ellipsis]
  | .param path suf init spec => path.toks ++ sufToks suf ++ initToks init ++ spec.toks

def ParamW.Ok (X : Parsers E C) : ParamW E → Prop
  | .ellipsis => True
  | .param path suf init spec =>
    path.trail = false ∧ SufOk X suf ∧ (∀ e ∈ init, e.Ok X) ∧ spec.Ok X ∧ (init.isSome → spec.AfterExpr)

/-- the words of a parameter before its name, without a `var` in front -/
def paramWords (path : PathW) : List Ident :=
  match path.dirs with
  | d :: ds => if d = (kw "var") then ds else d :: ds
  | [] => []

/-- of the words of a parameter only those in front of its type are flags -/
def ParamW.val : ParamW E → Param E
  | .ellipsis => { name := (kw "..."), ty := {} }
  | .param path suf init spec =>
    { name := path.last
      ty := withList suf
        { flags := flagsOf ((paramWords path).takeWhile (fun w => decide (w ∈ flagWords)))
          path := (paramWords path).dropWhile (fun w => decide (w ∈ flagWords)) }
      default := init.map ExprW.val
      input := spec.as_.val
      inList := spec.in_.map ExprW.val }

/-- the messages about a parameter -/
def ParamW.warns : ParamW E → List Diag
  | .ellipsis => []
  | .param path _ _ _ =>
    (if path.dirs.head? = some (kw "var") then [.varInParam] else [])
      ++ (if (flagsOf ((paramWords path).takeWhile (fun w => decide (w ∈ flagWords)))).static then [.staticInParam]
          else [])

/-- parameters separated by commas -/
def paramToks : List (ParamW E) → List Tok
  | [] => []
  | [p] => p.toks
  | p :: q :: ps => p.toks ++ .comma :: paramToks (q :: ps)

/-- a return type -/
inductive RetW where
  | none
  | parens
  | names (first : Ident) (rest : List Ident)
  | path (first : Ident) (rest : List Ident)

def RetW.toks : RetW → List Tok
  | .none => []
  | .parens => [.ident (kw "as"), .lparen, .rparen]
  | .names first rest => .ident (kw "as") :: .ident first :: rest.flatMap fun n => [.bitOr, .ident n]
  | .path first rest => .ident (kw "as") :: .slash :: .ident first :: rest.flatMap fun n => [.slash, .ident n]

def RetW.val : RetW → Option Ret
  | .none => Option.none
  | .parens => some (.input [])
  | .names first rest => some (.input (first :: rest))
  | .path first rest => some (.path (first :: rest))

def RetW.Ok : RetW → Prop
  | .names first rest => ∀ n ∈ first :: rest, n ∈ inputNames
  | _ => True

/-- opening and closing tokens -/
inductive Pair : Tok → Tok → Prop
  | paren : Pair .lparen .rparen
  | brace : Pair .lbrace .rbrace
  | bracket : Pair .lbracket .rbracket

def Tok.isBracket : Tok → Bool
  | .lparen | .rparen | .lbrace | .rbrace | .lbracket | .rbracket => true
  | _ => false

/-- brackets are balanced -/
inductive Balanced : List Tok → Prop
  | nil : Balanced []
  | tok (t : Tok) (ts : List Tok) : t.isBracket = false → Balanced ts → Balanced (t :: ts)
  | group (o c : Tok) (g ts : List Tok) : Pair o c → Balanced g → Balanced ts → Balanced (o :: g ++ c :: ts)

/-- brackets are balanced, and there is no `;` outside of them -/
inductive Line : List Tok → Prop
  | nil : Line []
  | tok (t : Tok) (ts : List Tok) : t.isBracket = false → t ≠ .semi → Line ts → Line (t :: ts)
  | group (o c : Tok) (g ts : List Tok) : Pair o c → Balanced g → Line ts → Line (o :: g ++ c :: ts)

/-- the body of a proc: nothing, a block, or on the same line -/
inductive BodyW where
  | none
  | block (ts : List Tok)
  | line (ts : List Tok)

def BodyW.toks : BodyW → List Tok
  | .none => []
  | .block ts => .lbrace :: ts ++ [.rbrace]
  | .line ts => ts

/-- the tokens handed to the parser of bodies -/
def BodyW.val : BodyW → List Tok
  | .none => [.semi]
  | .block ts => .lbrace :: ts ++ [.rbrace]
  | .line ts => ts ++ [.semi]

/-- a body on the same line does not start like a block or like the rest of the head of the proc -/
def BodyW.Ok : BodyW → Prop
  | .none => True
  | .block ts => Balanced ts
  | .line ts => Line ts ∧ ∃ t ∈ ts.head?, t ≠ .lbrace ∧ t ≠ .ident (kw "as") ∧ t ≠ .slash ∧ t ≠ .bitOr

/-- the operator after `operator` -/
inductive OpW where
  | none
  | sym (t : Tok)
  | index
  | indexAssign
  | text

def OpW.toks : OpW → List Tok
  | .none => []
  | .sym t => [t]
  | .index => [.lbracket, .rbracket]
  | .indexAssign => [.lbracket, .rbracket, .assign]
  | .text => [.emptyStr]

/-- an entry other than a block -/
inductive Leaf (E : Type) where
  | type
  | override (e : ExprW E)
  | var (suf : List (Option (ExprW E))) (init : Option (ExprW E)) (spec : SpecW E)
  | proc (op : OpW) (params : List (ParamW E)) (ret : RetW) (body : BodyW)

/-- what comes after the path -/
def Leaf.toks : Leaf E → List Tok
  | .type => []
  | .override e => .assign :: e.toks
  | .var suf init spec => sufToks suf ++ initToks init ++ spec.toks
  | .proc op params ret body => op.toks ++ .lparen :: paramToks params ++ .rparen :: ret.toks ++ body.toks

/-- entries, as written -/
inductive Src (E : Type) where
  | nil
  /-- a `;` on its own -/
  | semi (rest : Src E)
  /-- `path { body } rest` -/
  | block (path : PathW) (body rest : Src E)
  /-- `path …; rest`, or without the `;` -/
  | leaf (path : PathW) (what : Leaf E) (ended : Bool) (rest : Src E)

def Src.toks : Src E → List Tok
  | .nil => []
  | .semi rest => .semi :: rest.toks
  | .block path body rest => path.toks ++ .lbrace :: body.toks ++ .rbrace :: rest.toks
  | .leaf path what ended rest => path.toks ++ what.toks ++ (if ended then [.semi] else []) ++ rest.toks

/-! ## Meaning -/

/-- what an entry says: there is a type; a type has a variable, an initial value, a proc -/
inductive Fact (E C : Type) where
  | type (path : List Ident)
  | override (path : List Ident) (name : Ident) (e : E)
  | var (path : List Ident) (name : Ident) (ty : VarTy) (init : Option (Init E))
  | proc (path : List Ident) (name : Ident) (decl : Option ProcB) (ret : Option Ret) (value : ProcVal E C)

/-- the full name of a path in some blocks: an absolute path is its own full name -/
def full (ctx : List Ident) (p : PathW) : List Ident := if p.abs then p.names else ctx ++ p.names

/-- the full name without the last part -/
def dir (ctx : List Ident) (p : PathW) : List Ident := if p.abs then p.dirs else ctx ++ p.dirs

/-- the name of a proc -/
def procName (p : PathW) : OpW → Ident
  | .none => if p.trail then p.last ++ (kw "/") else p.last
  | .sym t => p.last ++ t.sym.getD []
  | .index => p.last ++ (kw "[]")
  | .indexAssign => p.last ++ (kw "[]=")
  | .text => p.last ++ (kw "\"\"")

/-- the declaration that a mode makes of a proc -/
def Mode.decl : Mode → Option ProcB
  | .procs k ws => some ⟨k, decide (ws ≠ [])⟩
  | _ => none

/-- what an entry says -/
def Leaf.fact (X : Parsers E C) (ctx : List Ident) (p : PathW) : Leaf E → Fact E C
  | .type => .type (full ctx p)
  | .override e => .override (read (dir ctx p)).1 p.last e.val
  | .var suf init spec =>
    .var (read (dir ctx p)).1 p.last
      { withList suf (match (read (dir ctx p)).2 with
          | .vars ws => varType ws
          | _ => {}) with input := spec.as_.val }
      (match init with
        | some e => some (.expr e.val)
        | none => sufInit suf)
  | .proc op params ret body =>
    .proc (read (dir ctx p)).1 (procName p op) (read (dir ctx p)).2.decl ret.val
      ⟨params.map ParamW.val, body.val, X.block body.val⟩

/-- what entries say, in the order they are written -/
def Src.facts (X : Parsers E C) (ctx : List Ident) : Src E → List (Fact E C)
  | .nil => []
  | .semi rest => rest.facts X ctx
  | .block path body rest =>
    .type (read (full ctx path)).1 :: body.facts X (full ctx path) ++ rest.facts X ctx
  | .leaf path what _ rest => what.fact X ctx path :: rest.facts X ctx

/-- the messages about an entry other than a block -/
def Leaf.warns (ctx : List Ident) (p : PathW) : Leaf E → List Diag
  | .proc _ params ret _ =>
    params.flatMap ParamW.warns
      ++ (if ret.val.isSome ∧ (read (dir ctx p)).2.decl = none then [.returnOnOverride] else [])
  | _ => []

/-- an absolute path inside of another type -/
def nested (ctx : List Ident) (p : PathW) : List Diag :=
  if p.abs = true ∧ (read ctx).1 ≠ [] then [.nestedAbsolute] else []

/-- the messages -/
def Src.warns (ctx : List Ident) : Src E → List Diag
  | .nil => []
  | .semi rest => rest.warns ctx
  | .block path body rest => nested ctx path ++ body.warns (full ctx path) ++ rest.warns ctx
  | .leaf path what _ rest => nested ctx path ++ what.warns ctx path ++ rest.warns ctx

/-! ## Well-formed entries -/

/-- an absolute path is not written among the variables or procs of a type -/
def PathOk (ctx : List Ident) (p : PathW) : Prop := p.abs = true → (read ctx).2 = .type

/-- `operator/` names a proc -/
def PathW.NotOp (p : PathW) : Prop := p.trail = true → p.last ≠ (kw "operator")

/-- what an entry may be, by what its full name is in -/
def Leaf.Ok (X : Parsers E C) (ctx : List Ident) (p : PathW) : Leaf E → Prop
  | .type => (read (full ctx p)).2 = .type ∧ p.NotOp
  | .override e => (read (dir ctx p)).2 = .type ∧ p.NotOp ∧ e.Ok X
  | .var suf init spec =>
    (∃ ws, (read (dir ctx p)).2 = .vars ws ∧ (kw "var") ∉ ws) ∧ p.last ≠ (kw "var") ∧ p.last ∉ flagWords
      ∧ (p.last = (kw "operator") → suf = [] ∧ p.trail = false) ∧ SufOk X suf ∧ (∀ e ∈ init, e.Ok X) ∧ spec.Ok X ∧ (init.isSome → spec.AfterExpr)
      ∧ (p.trail = true → spec.as_.val = none)
  | .proc op params ret body =>
    ((read (dir ctx p)).2 = .type ∨ ∃ k ws, (read (dir ctx p)).2 = .procs k ws ∧ ∀ w ∈ ws, w = (kw "final"))
      ∧ (∀ q ∈ params, q.Ok X) ∧ ret.Ok ∧ body.Ok
      ∧ (match op with
          | .none => p.trail = true → p.last = (kw "operator")
          | .sym t => p.last = (kw "operator") ∧ p.trail = false ∧ t ≠ .slash ∧ ∃ s ∈ t.sym, s ∈ operatorSyms
          | _ => p.last = (kw "operator") ∧ p.trail = false)

/-- does the entry end by itself -/
def Leaf.closed : Leaf E → Prop
  | .proc _ _ _ (.block _) => True
  | _ => False

/-- entries that mean something; `inner` says whether they are in a block, where the last one needs no `;` -/
def Src.Ok (X : Parsers E C) (ctx : List Ident) (inner : Bool) : Src E → Prop
  | .nil => True
  | .semi rest => rest.Ok X ctx inner
  | .block path body rest =>
    PathOk ctx path ∧ path.NotOp ∧ (read (full ctx path)).2.plain
      ∧ body.Ok X (full ctx path) true ∧ rest.Ok X ctx inner
  | .leaf path what ended rest =>
    PathOk ctx path ∧ what.Ok X ctx path ∧ (ended = false → what.closed ∨ (inner = true ∧ rest = .nil))
      ∧ rest.Ok X ctx inner

/-! ## The tree that facts describe -/

/-- find or add the type with a path, from a type on -/
def place (v : Env E C) (i : Nat) : List Ident → Option (Env E C × Nat)
  | [] => some (v, i)
  | c :: cs =>
    match v.subtype i c with
    | none => none
    | some (v', j) => place v' j cs

/-- add a fact to a tree -/
def Fact.add (v : Env E C) : Fact E C → Option (Env E C)
  | .type path => (place v 0 path).map Prod.fst
  | .override path name e => (place v 0 path).bind fun r => r.1.override r.2 name e
  | .var path name ty init => (place v 0 path).bind fun r => r.1.declare r.2 name ty init
  | .proc path name decl ret value => (place v 0 path).bind fun r => r.1.proc r.2 name decl ret value

/-- add facts to a tree, one after the other -/
def addAll (v : Env E C) : List (Fact E C) → Option (Env E C)
  | [] => some v
  | f :: fs => (f.add v).bind fun v' => addAll v' fs

/-- a tree has a root, and the children it lists exist -/
def Env.Sound (v : Env E C) : Prop :=
  0 < v.tree.inner.graph.length ∧
  ∀ (i : Nat) (n : Objtree.Node (VarVal E) (ProcVal E C)), v.tree.inner.graph[i]? = some n →
    ∀ c j, Objtree.mget c n.children = some j →
    0 < j ∧ j < v.tree.inner.graph.length

/-! ## What is seen of a tree -/

/-- the type with a path from a type on, if there is one -/
def lookup (v : Env E C) (i : Nat) : List Ident → Option Nat
  | [] => some i
  | c :: cs =>
    match v.tree.inner.graph[i]? with
    | none => none
    | some n =>
      match mget c n.children with
      | none => none
      | some j => lookup v j cs

/-- what is known after some declarations: the types by their paths, the variables of a type with their value and
declared type, the procs of a type with their values and declaration -/
structure World (E C : Type) where
  isType : List Ident → Bool
  var : List Ident → Ident → Option (VarVal E × Option VarTy)
  procs : List Ident → Ident → Option (List (ProcVal E C) × Option ProcDecl)

/-- what a fact adds: a type comes with the types its path goes through; the last value of a variable counts, and its
last declaration; a proc has its declared value before its overrides, and its first declaration counts -/
def World.tell (w : World E C) : Fact E C → World E C
  | .type p => { w with isType := fun q => w.isType q || q.isPrefixOf p }
  | .override p n e =>
    { w with
      isType := fun q => w.isType q || q.isPrefixOf p
      var := fun q m =>
        if q = p ∧ m = n then some (⟨some (.expr e)⟩, (w.var p n).bind fun x => x.2) else w.var q m }
  | .var p n ty init =>
    { w with
      isType := fun q => w.isType q || q.isPrefixOf p
      var := fun q m => if q = p ∧ m = n then some (⟨init⟩, some ty) else w.var q m }
  | .proc p n decl ret value =>
    { w with
      isType := fun q => w.isType q || q.isPrefixOf p
      procs := fun q m =>
        if q = p ∧ m = n then
          let old := (w.procs p n).getD ([], none)
          match decl with
          | none => some (old.1 ++ [value], old.2)
          | some b => some (value :: old.1, old.2.or (some ⟨b, ret⟩))
        else w.procs q m }

/-- nothing but the root -/
def World.empty : World E C := ⟨fun q => q.isEmpty, fun _ _ => none, fun _ _ => none⟩

/-- what a tree says -/
def Env.see (v : Env E C) : World E C where
  isType p := (lookup v 0 p).isSome
  var p n :=
    (lookup v 0 p).bind fun i => (v.tree.inner.graph[i]?).bind fun t => (mget n t.vars).map fun x =>
      (x.value, x.decl.bind fun id => mget id v.varDecls)
  procs p n :=
    (lookup v 0 p).bind fun i => (v.tree.inner.graph[i]?).bind fun t => (mget n t.procs).map fun x =>
      (x.value, x.decl.bind fun id => mget id v.procDecls)

end Verif.Decl
