import Verif.Objtree.Model

/-!
# Model of the parser of declarations (`crates/dreammaker/src/parser.rs`, the object tree)

* The input is what the indent processor gives: blocks are in braces, statements end in `;`.  Tokens carry no
  locations.  Documentation comments are not modelled.
* The parsers of an expression and of the body of a proc are parameters (`Parsers`).  The expression parser is
  modelled in `Verif.Parse`; of it only "an expression that was found takes at least one token" is used here.
* The tree is that of `Verif.Objtree`.  There a declaration is kept as its symbol id; `varDecls` and `procDecls`
  hold the content of the declarations by that id.
* `Out.fail` is a fatal syntax error: `run` keeps the tree built so far.  Messages are kinds without text, in
  order; the messages of an entry that fails are left out.  Annotations and the two settings
  `disallow_relative_*_definitions`, off by default, are not modelled.
* The recursion of `treeEntries` has fuel; `Out.fuel` does not arise, see `parsing_ends`.
-/

namespace Verif.Decl

open Verif.Objtree (Ident Builder mget)

/-- a word -/
def kw (s : String) : Ident := s.toList

/-- the tokens that matter here (lexer.rs:98-240, 244-262); `op` is any other punctuation, by its text, `other` any
other token -/
inductive Tok where
  | ident (s : Ident)
  | slash | dot | colon | closeColon
  | semi | comma | ellipsis | assign | in_ | bitOr
  | lbrace | rbrace | lparen | rparen | lbracket | rbracket
  | op (s : Ident)
  | emptyStr
  | other (n : Nat)
deriving DecidableEq

/-- messages of the parser of declarations (parser.rs:704-1096, 1307-1460) -/
inductive Diag where
  /-- "path started by" (parser.rs:766) -/
  | badLead
  /-- "path separated by" (parser.rs:783) -/
  | badSep
  /-- "path has no effect" (parser.rs:724) -/
  | noEffect
  /-- "tree entry appears to have no name" (parser.rs:836) -/
  | noName
  /-- "nested absolute path inside" (parser.rs:820) -/
  | nestedAbsolute
  /-- "cannot have sub-blocks of `proc/` block" (parser.rs:861) -/
  | procSubBlock
  /-- "`var;` item has no effect" (parser.rs:1040) -/
  | varNoEffect
  /-- "`var/flag;` item has no effect" (parser.rs:1045) -/
  | flagNoEffect
  /-- "`proc;` item has no effect" (parser.rs:1073) -/
  | procNoEffect
  /-- "child of `proc/` without body" (parser.rs:1077) -/
  | childWithoutBody
  /-- "cannot specify a return type for a proc override" (parser.rs:1422) -/
  | returnOnOverride
  /-- "bad input type" (parser.rs:1451, 1461) -/
  | badInputType
  /-- "'as' clause should precede 'in' clause" (parser.rs:1404) -/
  | inPrecedesAs
  /-- "'var/' is unnecessary here" (parser.rs:1332) -/
  | varInParam
  /-- "'static/' has no effect here" (parser.rs:1339) -/
  | staticInParam
  /-- "Extraneous ';' in proc parameter" (parser.rs:1358) -/
  | semiInParam
  /-- a parameter without a name (parser.rs:1326) -/
  | paramNoName
deriving DecidableEq

/-- the parsers of expressions (`expression`, parser.rs:2014) and of proc bodies (`block`, parser.rs:1472).  `expr`
gives `none` for an error and `some none` for "there is no expression here"; `block` gives `none` for an error. -/
structure Parsers (E C : Type) where
  expr : List Tok → Option (Option (E × List Tok))
  expr_takes : ∀ ts e rest, expr ts = some (some (e, rest)) → rest.length < ts.length
  block : List Tok → Option C

/-! ## What is registered -/

/-- `VarTypeFlags` (ast.rs:589-601) -/
structure VarFlags where
  static : Bool := false
  const : Bool := false
  tmp : Bool := false
  final : Bool := false
  priv : Bool := false
  prot : Bool := false
deriving DecidableEq

/-- `|` on flags -/
def VarFlags.or (a b : VarFlags) : VarFlags :=
  { static := a.static || b.static
    const := a.const || b.const
    tmp := a.tmp || b.tmp
    final := a.final || b.final
    priv := a.priv || b.priv
    prot := a.prot || b.prot }

/-- `VarTypeFlags::from_name` (ast.rs:604-618) -/
def VarFlags.fromName (s : Ident) : Option VarFlags :=
  if s = (kw "global") ∨ s = (kw "static") then some { static := true }
  else if s = (kw "const") then some { const := true }
  else if s = (kw "tmp") then some { tmp := true }
  else if s = (kw "final") ∨ s = (kw "SpacemanDMM_final") then some { final := true }
  else if s = (kw "SpacemanDMM_private") then some { priv := true }
  else if s = (kw "SpacemanDMM_protected") then some { prot := true }
  else none

/-- `ProcDeclKind` (ast.rs:365-369) -/
inductive ProcKind where
  | proc | verb
deriving DecidableEq

/-- `ProcDeclKind::from_name` (ast.rs:372-378) -/
def ProcKind.fromName (s : Ident) : Option ProcKind :=
  if s = (kw "proc") then some .proc else if s = (kw "verb") then some .verb else none

/-- `ProcFlags::from_name` (ast.rs:409-416): `final` is the only flag -/
def procFlag (s : Ident) : Bool := s = (kw "final")

/-- `InputType` (ast.rs:526-554), as the names in the order they were given -/
abbrev InTy := List Ident

/-- the names of `InputType` (ast.rs:533-553) -/
def inputNames : List Ident :=
  ["mob", "obj", "text", "num", "file", "turf", "key", "null", "area", "icon", "sound", "message", "anything",
    "password", "command_text", "color", "movable", "atom", "list"].map kw

/-- `VarType`, and `VarTypeBuilder` (ast.rs:1385-1427) -/
structure VarTy where
  flags : VarFlags := {}
  path : List Ident := []
  input : Option InTy := none
deriving DecidableEq

/-- `ProcDeclBuilder` (ast.rs:330-334) -/
structure ProcB where
  kind : ProcKind
  final : Bool := false
deriving DecidableEq

/-- an initial value: an expression, or the `new /list(…)` of a list suffix (ast.rs:1479-1491) -/
inductive Init (E : Type) where
  | expr (e : E)
  | newList (args : List E)
deriving DecidableEq

/-- `VarValue` (objtree.rs:37-50) -/
structure VarVal (E : Type) where
  init : Option (Init E)
deriving DecidableEq

/-- `Parameter` (ast.rs:1345-1356) -/
structure Param (E : Type) where
  name : Ident
  ty : VarTy
  default : Option E := none
  input : Option InTy := none
  inList : Option E := none
deriving DecidableEq

/-- `ProcReturnType` (ast.rs) -/
inductive Ret where
  | input (t : InTy)
  | path (p : List Ident)
deriving DecidableEq

/-- `ProcValue` (objtree.rs:88-97); the tokens of the body stand for its range -/
structure ProcVal (E C : Type) where
  params : List (Param E)
  body : List Tok
  code : Option C
deriving DecidableEq

/-- `ProcDeclaration` (objtree.rs:101-109) -/
structure ProcDecl where
  builder : ProcB
  ret : Option Ret
deriving DecidableEq

/-- the tree that is being built -/
structure Env (E C : Type) where
  tree : Builder (VarVal E) (ProcVal E C)
  varDecls : List (Nat × VarTy)
  procDecls : List (Nat × ProcDecl)

section
variable {E C : Type}

/-- `subtype_or_add` (objtree.rs:1020-1057) -/
def Env.subtype (v : Env E C) (cur : Nat) (name : Ident) : Option (Env E C × Nat) :=
  match v.tree.subtypeOrAdd cur name with
  | none => none
  | some (t, i) => some ({ v with tree := t }, i)

/-- `declare_var` (objtree.rs:1080-1106) -/
def Env.declare (v : Env E C) (cur : Nat) (name : Ident) (ty : VarTy) (init : Option (Init E)) : Option (Env E C) :=
  match v.tree.declareVar cur name ⟨init⟩ with
  | none => none
  | some t => some { v with tree := t, varDecls := v.varDecls ++ [(v.tree.next, ty)] }

/-- `override_var` (objtree.rs:1108-1128) -/
def Env.override (v : Env E C) (cur : Nat) (name : Ident) (e : E) : Option (Env E C) :=
  match v.tree.overrideVar cur name ⟨some (.expr e)⟩ with
  | none => none
  | some t => some { v with tree := t }

/-- `register_proc` (objtree.rs:1228-1303): the first declaration stays -/
def Env.proc (v : Env E C) (cur : Nat) (name : Ident) (decl : Option ProcB) (ret : Option Ret) (p : ProcVal E C) :
    Option (Env E C) :=
  match v.tree.registerProc cur name decl.isSome p with
  | none => none
  | some t =>
    some
      { tree := t
        varDecls := v.varDecls
        procDecls :=
          match decl with
          | none => v.procDecls
          | some b => if t.next = v.tree.next then v.procDecls else v.procDecls ++ [(v.tree.next, ⟨b, ret⟩)] }

/-! ## Paths -/

/-- the tokens `slash` takes (parser.rs:775-788), with its message -/
def sep : Tok → Option (List Diag)
  | .slash => some []
  | .dot | .closeColon | .colon => some [.badSep]
  | _ => none

/-- the `while` of `tree_path` (parser.rs:731-750) -/
def pathLoop (parts : List Ident) : List Tok → List Ident × List Tok × List Diag
  | [] => (parts, [], [])
  | t :: rest =>
    match sep t with
    | none => (parts, t :: rest, [])
    | some ds =>
      match rest with
      | .ident i :: rest' =>
        let r := pathLoop (parts ++ [i]) rest'
        (r.1, r.2.1, ds ++ r.2.2)
      | rest =>
        let parts :=
          if parts.getLast? = some (kw "operator") then parts.dropLast ++ [(kw "operator/")] else parts
        let r := pathLoop parts rest
        (r.1, r.2.1, ds ++ r.2.2)

/-- `possible_leading_slash` (parser.rs:759-772): absolute, spurious -/
def leadSlash : List Tok → Bool × Bool × List Tok × List Diag
  | .slash :: rest => (true, false, rest, [])
  | .dot :: rest | .closeColon :: rest | .colon :: rest => (false, true, rest, [.badLead])
  | ts => (false, false, ts, [])

/-- `tree_path` (parser.rs:704-756); `none` is "there is no path here" -/
def treePath (ts : List Tok) : Option (Bool × List Ident × List Tok × List Diag) :=
  match leadSlash ts with
  | (abs, spurious, rest, ds) =>
    match rest with
    | .ident i :: rest' =>
      let r := pathLoop [i] rest'
      some (abs, r.1, r.2.1, ds ++ r.2.2)
    | rest => if abs || spurious then some (abs, [], rest, ds ++ [.noEffect]) else none

/-! ## Where a path leads -/

/-- where `tree_entry` is (parser.rs:790-795): the type, and whether in a `proc` or `var` path -/
structure Pos where
  cur : Nat
  pb : Option ProcB
  vt : Option VarTy
deriving DecidableEq

/-- `traverse_tree!` (parser.rs:842-886) -/
def step (v : Env E C) (pos : Pos) (each : Ident) : Option (Env E C × Pos × List Diag) :=
  if each = (kw "var") then some (v, { pos with vt := some {} }, [])
  else
    match pos.vt with
    | some vt =>
      match VarFlags.fromName each with
      | some f => some (v, { pos with vt := some { vt with flags := vt.flags.or f } }, [])
      | none => some (v, { pos with vt := some { vt with path := vt.path ++ [each] } }, [])
    | none =>
      match ProcKind.fromName each with
      | some k => some (v, { pos with pb := some ⟨k, false⟩ }, [])
      | none =>
        match pos.pb with
        | some b =>
          if procFlag each then some (v, { pos with pb := some { b with final := true } }, [])
          else some (v, pos, [.procSubBlock])
        | none =>
          match v.subtype pos.cur each with
          | none => none
          | some (v', i) => some (v', { pos with cur := i }, [])

/-- `for each in traverse` (parser.rs:897-899) -/
def steps (v : Env E C) (pos : Pos) : List Ident → Option (Env E C × Pos × List Diag)
  | [] => some (v, pos, [])
  | each :: rest =>
    match step v pos each with
    | none => none
    | some (v', pos', ds) =>
      match steps v' pos' rest with
      | none => none
      | some (v'', pos'', ds') => some (v'', pos'', ds ++ ds')

/-- the operators that may be overloaded (parser.rs:1101-1176), besides `[]`, `[]=` and `""` -/
def operatorSyms : List Ident :=
  ["%", "%=", "%%", "%%=", "&", "&=", "*", "**", "*=", "/", "/=", "+", "++", "+=", "-", "--", "-=", "<", "<<", "<<=",
    "<=", "<=>", ">", ">=", ">>", ">>=", "^", "^=", "|", "|=", "~", "~=", ":="].map kw

/-- the text of a punctuation token that may be an operator -/
def Tok.sym : Tok → Option Ident
  | .slash => some (kw "/")
  | .bitOr => some (kw "|")
  | .op s => some s
  | _ => none

/-- `try_read_operator_name` (parser.rs:1101-1184) when the last part of the path is `operator`
(parser.rs:902-906); `none` is a syntax error -/
def operatorName (last : Ident) (ts : List Tok) : Option (Ident × List Tok) :=
  if last = (kw "operator") then
    match ts with
    | .lbracket :: .rbracket :: .assign :: rest => some ((kw "operator[]="), rest)
    | .lbracket :: .rbracket :: rest => some ((kw "operator[]"), rest)
    | .lbracket :: _ => none
    | .emptyStr :: rest => some ((kw "operator\"\""), rest)
    | t :: rest =>
      match t.sym with
      | none => some (last, t :: rest)
      | some s => if s ∈ operatorSyms then some (last ++ s, rest) else some (last, t :: rest)
    | [] => some (last, [])
  else some (last, ts)

/-! ## Parts of a declaration -/

/-- the end of one `[…]` of a list suffix (parser.rs:1382-1384) -/
def suffixPart (X : Parsers E C) (rest : List Tok) : Option (Option E × List Tok) :=
  match X.expr rest with
  | none => none
  | some none =>
    match rest with
    | .rbracket :: rest' => some (none, rest')
    | _ => none
  | some (some (e, r)) =>
    match r with
    | .rbracket :: rest' => some (some e, rest')
    | _ => none

theorem suffixPart_lt {X : Parsers E C} {ts rest : List Tok} {e : Option E} (h : suffixPart X ts = some (e, rest)) :
    rest.length < ts.length := by
  unfold suffixPart at h
  split at h
  · cases h
  · split at h
    · cases h; simp
    · cases h
  · rename_i e' r hx
    have := X.expr_takes _ _ _ hx
    split at h
    · cases h; simp at this; omega
    · cases h

/-- `var_suffix` (parser.rs:1377-1387); `none` is a syntax error -/
def varSuffix (X : Parsers E C) (ts : List Tok) : Option (List (Option E) × List Tok) :=
  match ts with
  | .lbracket :: rest =>
    match h : suffixPart X rest with
    | none => none
    | some (e, rest') =>
      have : rest'.length < rest.length := suffixPart_lt h
      match varSuffix X rest' with
      | none => none
      | some (es, r) => some (e :: es, r)
  | ts => some ([], ts)
termination_by ts.length
decreasing_by simp; omega

/-- `VarTypeBuilder::suffix` (ast.rs:1430-1434) -/
def VarTy.suffix (t : VarTy) (es : List (Option E)) : VarTy :=
  if es = [] then t else { t with path := (kw "list") :: t.path }

/-- `VarSuffix::into_initializer` (ast.rs:1479-1491) -/
def initializer (es : List (Option E)) : Option (Init E) :=
  let args := es.filterMap id
  if args = [] then none else some (.newList args)

/-- one name of an input type (parser.rs:1447-1453, 1457-1463) -/
def inputName (s : Ident) : InTy × List Diag := if s ∈ inputNames then ([s], []) else ([], [.badInputType])

/-- the `while` of `input_type` (parser.rs:1455-1464) -/
def inputLoop : List Tok → Option (InTy × List Tok × List Diag)
  | .bitOr :: .ident s :: rest =>
    match inputLoop rest with
    | none => none
    | some (t, r, ds) => some ((inputName s).1 ++ t, r, (inputName s).2 ++ ds)
  | .bitOr :: _ => none
  | ts => some ([], ts, [])

/-- `input_type` (parser.rs:1439-1466): `none` is a syntax error, `some none` is "there is none here" -/
def inputType : List Tok → Option (Option (InTy × List Tok × List Diag))
  | .lparen :: .rparen :: rest => some (some ([], rest, []))
  | .lparen :: _ => none
  | .ident s :: rest =>
    match inputLoop rest with
    | none => none
    | some (t, r, ds) => some (some ((inputName s).1 ++ t, r, (inputName s).2 ++ ds))
  | _ => some none

/-- an `as` clause (parser.rs:1392-1396) -/
def asClause : List Tok → Option (Option InTy × List Tok × List Diag)
  | .ident s :: rest =>
    if s = (kw "as") then
      match inputType rest with
      | none => none
      | some none => none
      | some (some (t, r, ds)) => some (some t, r, ds)
    else some (none, .ident s :: rest, [])
  | ts => some (none, ts, [])

/-- `input_specifier` (parser.rs:1390-1413) -/
def inputSpec (X : Parsers E C) (ts : List Tok) : Option (Option InTy × Option E × List Tok × List Diag) :=
  match asClause ts with
  | none => none
  | some (t, .in_ :: r, ds) =>
    match X.expr r with
    | none => none
    | some none => none
    | some (some (e, r')) =>
      match asClause r' with
      | none => none
      | some (none, r'', ds') => some (t, some e, r'', ds ++ ds')
      | some (some _, r'', ds') => some (t, some e, r'', ds ++ [.inPrecedesAs] ++ ds')
  | some (t, r, ds) => some (t, none, r, ds)

/-- `statement_terminator` (parser.rs:1873-1888) -/
def terminator : List Tok → Option (List Tok)
  | .semi :: rest => some rest
  | .rbrace :: rest => some (.rbrace :: rest)
  | _ => none

/-! ## Procs -/

/-- `FromIterator for VarTypeBuilder` (ast.rs:1445-1465): flags count only in front of the type -/
def VarTy.ofPath : List Ident → VarTy
  | [] => {}
  | p :: ps =>
    match VarFlags.fromName p with
    | some f => let t := VarTy.ofPath ps; { t with flags := f.or t.flags }
    | none => { path := p :: ps }

/-- the default value of a parameter (parser.rs:1347-1352) -/
def paramDefault (X : Parsers E C) : List Tok → Option (Option E × List Tok)
  | .assign :: r =>
    match X.expr r with
    | some (some (e, r')) => some (some e, r')
    | _ => none
  | ts => some (none, ts)

/-- the `;` after a parameter (parser.rs:1355-1361) -/
def paramSemi : List Tok → List Tok × List Diag
  | .semi :: r => (r, [.semiInParam])
  | ts => (ts, [])

/-- the name and type of a parameter (parser.rs:1322-1343) -/
def paramHead (path : List Ident) : Ident × VarTy × List Diag :=
  let name := path.getLast?.getD []
  let ds := if path = [] then [Diag.paramNoName] else []
  let path := path.dropLast
  let ds' := if path.head? = some (kw "var") then [Diag.varInParam] else []
  let path := if path.head? = some (kw "var") then path.tail else path
  let ty := VarTy.ofPath path
  (name, ty, ds ++ ds' ++ if ty.flags.static then [.staticInParam] else [])

/-- `proc_parameter` (parser.rs:1307-1371); `none` is a syntax error -/
def procParam (X : Parsers E C) (ts : List Tok) : Option (Param E × List Tok × List Diag) :=
  match ts with
  | .ellipsis :: rest => some ({ name := (kw "..."), ty := {} }, rest, [])
  | ts =>
    match treePath ts with
    | none => none
    | some (_, path, r, ds) =>
      match varSuffix X r with
      | none => none
      | some (suf, r1) =>
        match paramDefault X r1 with
        | none => none
        | some (dflt, r2) =>
          match inputSpec X r2 with
          | none => none
          | some (input, inList, r3, ds2) =>
            some
              ({ name := (paramHead path).1
                 ty := (paramHead path).2.1.suffix suf
                 default := dflt
                 input := input
                 inList := inList }, (paramSemi r3).1, ds ++ (paramHead path).2.2 ++ ds2 ++ (paramSemi r3).2)

theorem pathLoop_le (ts : List Tok) : ∀ (k : Nat) (parts : List Ident), ts.length ≤ k →
    (pathLoop parts ts).2.1.length ≤ ts.length := by
  intro k
  induction k generalizing ts with
  | zero =>
    intro parts h
    have : ts = [] := by cases ts <;> simp_all
    subst this
    simp [pathLoop]
  | succ k ih =>
    intro parts h
    rcases ts with - | ⟨t, rest⟩
    · simp [pathLoop]
    · rw [pathLoop]
      split
      · simp
      · split
        · rename_i i rest'
          simp only [List.length_cons] at h ⊢
          have := ih rest' (parts ++ [i]) (by omega)
          omega
        · simp only [List.length_cons] at h ⊢
          have := ih rest (if parts.getLast? = some (kw "operator") then parts.dropLast ++ [(kw "operator/")] else parts)
            (by omega)
          omega

theorem treePath_lt {ts rest : List Tok} {a : Bool} {p : List Ident} {ds : List Diag}
    (h : treePath ts = some (a, p, rest, ds)) : rest.length < ts.length := by
  have hl : ∀ a sp r d, leadSlash ts = (a, sp, r, d) →
      r.length ≤ ts.length ∧ ((a || sp) = true → r.length < ts.length) := by
    intro a sp r d hl
    unfold leadSlash at hl
    split at hl <;> cases hl <;> simp
  unfold treePath at h
  split at h
  rename_i a' sp r d hls
  have ⟨h1, h2⟩ := hl _ _ _ _ hls
  split at h
  · rename_i i rest'
    cases h
    have := pathLoop_le rest' _ [i] (Nat.le_refl _)
    simp at h1
    omega
  · split at h
    · rename_i hs
      cases h
      exact h2 hs
    · cases h

theorem varSuffix_le {X : Parsers E C} (ts : List Tok) : ∀ (k : Nat) (es : List (Option E)) (rest : List Tok),
    ts.length ≤ k → varSuffix X ts = some (es, rest) → rest.length ≤ ts.length := by
  intro k
  induction k generalizing ts with
  | zero =>
    intro es rest h hv
    have : ts = [] := by cases ts <;> simp_all
    subst this
    simp [varSuffix] at hv
    simp [← hv.2]
  | succ k ih =>
    intro es rest h hv
    rw [varSuffix.eq_def] at hv
    split at hv
    · rename_i r
      split at hv
      · cases hv
      · rename_i e r' hs
        have h1 := suffixPart_lt hs
        simp only [List.length_cons] at h ⊢
        simp only at hv
        split at hv
        · cases hv
        · rename_i es' r'' hv'
          cases hv
          have := ih r' es' rest (by omega) hv'
          omega
    · cases hv
      exact (Nat.le_refl _)

theorem inputLoop_le (ts : List Tok) : ∀ (k : Nat) (t : InTy) (r : List Tok) (ds : List Diag), ts.length ≤ k →
    inputLoop ts = some (t, r, ds) → r.length ≤ ts.length := by
  intro k
  induction k generalizing ts with
  | zero =>
    intro t r ds h hv
    have : ts = [] := by cases ts <;> simp_all
    subst this
    simp [inputLoop] at hv
    simp [← hv.2.1]
  | succ k ih =>
    intro t r ds h hv
    rw [inputLoop.eq_def] at hv
    split at hv
    · rename_i s rest
      split at hv
      · cases hv
      · rename_i t' r' ds' hl
        cases hv
        simp only [List.length_cons] at h ⊢
        have := ih rest _ _ _ (by omega) hl
        omega
    · cases hv
    · cases hv
      exact (Nat.le_refl _)

theorem asClause_le {ts r : List Tok} {t : Option InTy} {ds : List Diag} (h : asClause ts = some (t, r, ds)) :
    r.length ≤ ts.length := by
  unfold asClause at h
  split at h
  · rename_i s rest
    split at h
    · split at h
      · cases h
      · cases h
      · rename_i t' r' ds' hi
        cases h
        unfold inputType at hi
        split at hi
        · cases hi; simp; omega
        · cases hi
        · split at hi
          · cases hi
          · rename_i hl
            cases hi
            have := inputLoop_le _ _ _ _ _ (Nat.le_refl _) hl
            simp
            omega
        · cases hi
    · cases h; exact (Nat.le_refl _)
  · cases h; exact (Nat.le_refl _)

theorem inputSpec_le {X : Parsers E C} {ts r : List Tok} {t : Option InTy} {e : Option E} {ds : List Diag}
    (h : inputSpec X ts = some (t, e, r, ds)) : r.length ≤ ts.length := by
  unfold inputSpec at h
  split at h
  · cases h
  · rename_i t' r' ds' ha
    have h1 := asClause_le ha
    simp only [List.length_cons] at h1
    split at h
    · cases h
    · cases h
    · rename_i e' r'' hx
      have h2 := X.expr_takes _ _ _ hx
      split at h
      · cases h
      · rename_i hb
        have h3 := asClause_le hb
        cases h
        omega
      · rename_i hb
        have h3 := asClause_le hb
        cases h
        omega
  · rename_i ha
    have h1 := asClause_le ha
    cases h
    exact h1

theorem paramDefault_le {X : Parsers E C} {ts r : List Tok} {e : Option E} (h : paramDefault X ts = some (e, r)) :
    r.length ≤ ts.length := by
  unfold paramDefault at h
  split at h
  · split at h
    · rename_i hx
      have := X.expr_takes _ _ _ hx
      cases h
      simp
      omega
    · cases h
  · cases h; exact (Nat.le_refl _)

theorem paramSemi_le (ts : List Tok) : (paramSemi ts).1.length ≤ ts.length := by
  unfold paramSemi
  split <;> simp

theorem procParam_lt {X : Parsers E C} {ts r : List Tok} {p : Param E} {ds : List Diag}
    (h : procParam X ts = some (p, r, ds)) : r.length < ts.length := by
  unfold procParam at h
  split at h
  · cases h; simp
  · split at h
    · cases h
    · rename_i hp
      have h1 := treePath_lt hp
      split at h
      · cases h
      · rename_i hv
        have h2 := varSuffix_le _ _ _ _ (Nat.le_refl _) hv
        split at h
        · cases h
        · rename_i hd
          have h3 := paramDefault_le hd
          split at h
          · cases h
          · rename_i r3 _ hi
            have h4 := inputSpec_le hi
            cases h
            have := paramSemi_le r3
            omega

/-- `separated(Comma, RParen, None, proc_parameter)` (parser.rs:2818-2846) after the `(`; `legal` is `comma_legal` -/
def procParams (X : Parsers E C) (legal : Bool) (ts : List Tok) : Option (List (Param E) × List Tok × List Diag) :=
  match ts with
  | .rparen :: rest => some ([], rest, [])
  | .comma :: rest => if legal then procParams X false rest else none
  | ts =>
    if legal then none
    else
      match h : procParam X ts with
      | none => none
      | some (p, r, ds) =>
        have : r.length < ts.length := procParam_lt h
        match procParams X true r with
        | none => none
        | some (ps, r', ds') => some (p :: ps, r', ds ++ ds')
termination_by ts.length
decreasing_by all_goals simp_all

/-- the rest of the type path of a return type (parser.rs:1430-1434) -/
def retPath : List Tok → Option (List Ident × List Tok)
  | .slash :: .ident s :: rest =>
    match retPath rest with
    | none => none
    | some (p, r) => some (s :: p, r)
  | .slash :: _ => none
  | ts => some ([], ts)

/-- `return_type` (parser.rs:1416-1437); `none` is a syntax error -/
def returnType (decl : Option ProcB) : List Tok → Option (Option Ret × List Tok × List Diag)
  | .ident s :: rest =>
    if s = (kw "as") then
      let ds := if decl.isNone then [Diag.returnOnOverride] else []
      match inputType rest with
      | none => none
      | some (some (t, r, ds')) => some (some (.input t), r, ds ++ ds')
      | some none =>
        match rest with
        | .slash :: .ident s' :: r =>
          match retPath r with
          | none => none
          | some (p, r') => some (some (.path (s' :: p)), r', ds)
        | _ => none
    else some (none, .ident s :: rest, [])
  | ts => some (none, ts, [])

/-- the closing token of a group (`TTKind`, parser.rs:291-320) -/
def closer : Tok → Option Tok
  | .lparen => some .rparen
  | .lbrace => some .rbrace
  | .lbracket => some .rbracket
  | _ => none

/-- the `loop` of `read_any_tt` (parser.rs:2864-2873), for a stack of the groups that are open: what was read, and the
rest; `none` is the end of the file.  The recursive calls of `read_any_tt` are the stack. -/
def groupLoop : List Tok → List Tok → Option (List Tok × List Tok)
  | [], ts => some ([], ts)
  | _ :: _, [] => none
  | c :: stack, t :: rest =>
    if t = c then
      match groupLoop stack rest with
      | none => none
      | some (g, r) => some (t :: g, r)
    else
      match closer t with
      | some c' =>
        match groupLoop (c' :: c :: stack) rest with
        | none => none
        | some (g, r) => some (t :: g, r)
      | none =>
        match groupLoop (c :: stack) rest with
        | none => none
        | some (g, r) => some (t :: g, r)

/-- `read_any_tt` (parser.rs:2851-2874); `none` is the end of the file -/
def readTT : List Tok → Option (List Tok × List Tok)
  | [] => none
  | t :: rest =>
    match closer t with
    | none => some ([t], rest)
    | some c =>
      match groupLoop [c] rest with
      | none => none
      | some (g, r) => some (t :: g, r)

theorem groupLoop_le (stack ts : List Tok) : ∀ g r, groupLoop stack ts = some (g, r) → r.length ≤ ts.length := by
  induction ts generalizing stack with
  | nil =>
    intro g r h
    cases stack with
    | nil => simp [groupLoop] at h; simp [← h.2]
    | cons c st => simp [groupLoop] at h
  | cons t rest ih =>
    intro g r h
    cases stack with
    | nil => simp [groupLoop] at h; simp [← h.2]
    | cons c st =>
      rw [groupLoop] at h
      split at h
      · split at h
        · cases h
        · rename_i hg
          cases h
          have := ih _ _ _ hg
          simp; omega
      · split at h
        · split at h
          · cases h
          · rename_i hg
            cases h
            have := ih _ _ _ hg
            simp; omega
        · split at h
          · cases h
          · rename_i hg
            cases h
            have := ih _ _ _ hg
            simp; omega

theorem readTT_lt {ts g r : List Tok} (h : readTT ts = some (g, r)) : r.length < ts.length := by
  unfold readTT at h
  split at h
  · cases h
  · split at h
    · cases h; simp
    · split at h
      · cases h
      · rename_i hg
        cases h
        have := groupLoop_le _ _ _ _ hg
        simp; omega

/-- the `while` of a same-line body (parser.rs:1232-1235) -/
def lineBody (ts : List Tok) : Option (List Tok × List Tok) :=
  match terminator ts with
  | some r => some ([.semi], r)
  | none =>
    match h : readTT ts with
    | none => none
    | some (g, r) =>
      have : r.length < ts.length := readTT_lt h
      match lineBody r with
      | none => none
      | some (b, r') => some (g ++ b, r')
termination_by ts.length

/-- the body of a proc (parser.rs:1207-1237): its tokens and the rest; the `while` over the tokens between the braces
is the loop of `read_any_tt` for `{` -/
def procBody (ts : List Tok) : Option (List Tok × List Tok) :=
  match terminator ts with
  | some r => some ([.semi], r)
  | none =>
    match ts with
    | .lbrace :: rest =>
      match groupLoop [.rbrace] rest with
      | none => none
      | some (g, r) => some (.lbrace :: g, r)
    | ts => lineBody ts

/-- `proc_params_and_body` (parser.rs:1186-1305) up to `register_proc`, after the `(` -/
def procRest (X : Parsers E C) (decl : Option ProcB) (ts : List Tok) :
    Option (ProcVal E C × Option Ret × List Tok × List Diag) :=
  match procParams X false ts with
  | none => none
  | some (params, r, ds) =>
    match returnType decl r with
    | none => none
    | some (ret, r', ds') =>
      match procBody r' with
      | none => none
      | some (body, r'') => some (⟨params, body, X.block body⟩, ret, r'', ds ++ ds')

/-! ## Entries -/

/-- how parsing an entry, or a list of entries, ends -/
inductive Out (E C : Type) where
  | ok (v : Env E C) (ts : List Tok) (ds : List Diag)
  /-- a fatal syntax error -/
  | fail (v : Env E C) (ds : List Diag)
  /-- a panic because of a type that is not in the tree -/
  | panic
  /-- the panic "kept parsing after EOF" (parser.rs:538) -/
  | afterEof
  | fuel
  /-- `Ok(None)`: no entry here -/
  | nothing

/-- `something=` (parser.rs:956-1000), after the `=` -/
def assignEntry (X : Parsers E C) (v : Env E C) (pos : Pos) (last : Ident) (suf : List (Option E)) (ts : List Tok)
    (ds : List Diag) : Out E C :=
  match X.expr ts with
  | none => .fail v ds
  | some none => .fail v ds
  | some (some (e, r)) =>
    match inputSpec X r with
    | none => .fail v ds
    | some (input, _, r', ds') =>
      match terminator r' with
      | none => .fail v ds
      | some r'' =>
        match pos.vt with
        | some vt =>
          match v.declare pos.cur last { vt.suffix suf with input := input } (some (.expr e)) with
          | none => .panic
          | some v' => .ok v' r'' (ds ++ ds')
        | none =>
          match v.override pos.cur last e with
          | none => .panic
          | some v' => .ok v' r'' (ds ++ ds')

/-- `something(` (parser.rs:1001-1013), after the `(` -/
def procEntry (X : Parsers E C) (v : Env E C) (pos : Pos) (last : Ident) (ts : List Tok) (ds : List Diag) : Out E C :=
  match procRest X pos.pb ts with
  | none => .fail v ds
  | some (p, ret, r, ds') =>
    match v.proc pos.cur last pos.pb ret p with
    | none => .panic
    | some v' => .ok v' r (ds ++ ds')

/-- `thing;` in a `var` path (parser.rs:1017-1070) -/
def bareVar (X : Parsers E C) (v : Env E C) (cur : Nat) (vt : VarTy) (last : Ident) (suf : List (Option E))
    (ts : List Tok) (ds : List Diag) : Out E C :=
  match inputSpec X ts with
  | none => .fail v ds
  | some (input, _, r, ds') =>
    if last = (kw "var") then .ok v r (ds ++ ds' ++ [.varNoEffect])
    else if (VarFlags.fromName last).isSome then .ok v r (ds ++ ds' ++ [.flagNoEffect])
    else
      match v.declare cur last { vt.suffix suf with input := input } (initializer suf) with
      | none => .panic
      | some v' => .ok v' r (ds ++ ds')

/-- `thing;` outside of a `var` path (parser.rs:1037-1091) -/
def bareEntry (v : Env E C) (pos : Pos) (last : Ident) (ts : List Tok) (ds : List Diag) : Out E C :=
  if last = (kw "var") then .ok v ts (ds ++ [.varNoEffect])
  else if (ProcKind.fromName last).isSome then .ok v ts (ds ++ [.procNoEffect])
  else if pos.pb.isSome then .ok v ts (ds ++ [.childWithoutBody])
  else
    match v.subtype pos.cur last with
    | none => .panic
    | some (v', _) => .ok v' ts ds

/-- what an entry is after its path has been read and followed (parser.rs:790-925) -/
inductive Head (E C : Type) where
  /-- no path -/
  | nothing
  | fail (v : Env E C) (ds : List Diag)
  | panic
  /-- a path without a name -/
  | empty (ts : List Tok) (ds : List Diag)
  | at (v : Env E C) (pos : Pos) (last : Ident) (suf : List (Option E)) (ts : List Tok) (ds : List Diag)

/-- where the path of an entry starts (parser.rs:817-830) -/
def start (pos : Pos) (abs : Bool) : Pos × List Diag :=
  if abs = true ∧ pos.cur ≠ 0 then ({ pos with cur := 0 }, [.nestedAbsolute]) else (pos, [])

/-- `var_suffix` where there may be one (parser.rs:908-912) -/
def suffixIf (X : Parsers E C) (b : Bool) (ts : List Tok) : Option (List (Option E) × List Tok) :=
  if b then varSuffix X ts else some ([], ts)

/-- the path of an entry and what belongs to it (parser.rs:805-912) -/
def entryHead (X : Parsers E C) (v : Env E C) (pos : Pos) (ts : List Tok) : Head E C :=
  match treePath ts with
  | none => .nothing
  | some (abs, path, r, ds) =>
    match path.getLast? with
    | none => .empty r (ds ++ (start pos abs).2 ++ [.noName])
    | some last =>
      match steps v (start pos abs).1 path.dropLast with
      | none => .panic
      | some (v', pos', ds') =>
        match operatorName last r with
        | none => .fail v' (ds ++ (start pos abs).2 ++ ds')
        | some (last', r') =>
          match suffixIf X pos'.vt.isSome r' with
          | none => .fail v' (ds ++ (start pos abs).2 ++ ds')
          | some (suf, r'') => .at v' pos' last' suf r'' (ds ++ (start pos abs).2 ++ ds')

mutual
/-- `tree_entries` (parser.rs:664-699); `inner` is whether the terminator is `}`, otherwise it is the end of the file.
An inner list that meets the end of the file takes the `Eof` token, and the caller looks for the next token
(`annotate`, parser.rs:583-586 from 945): a panic (parser.rs:538). -/
def treeEntries (X : Parsers E C) : Nat → Pos → Bool → Env E C → List Tok → List Diag → Out E C
  | 0, _, _, _, _, _ => .fuel
  | f + 1, pos, inner, v, ts, ds =>
    match ts with
    | [] => if inner then .afterEof else .ok v [] ds
    | .semi :: rest => treeEntries X f pos inner v rest ds
    | t :: rest =>
      if inner = true ∧ t = .rbrace then .ok v rest ds
      else
        match treeEntry X f pos v (t :: rest) ds with
        | .ok v' r ds' => treeEntries X f pos inner v' r ds'
        | .nothing => .fail v ds
        | o => o

/-- `tree_entry` (parser.rs:790-1096) -/
def treeEntry (X : Parsers E C) : Nat → Pos → Env E C → List Tok → List Diag → Out E C
  | 0, _, _, _, _ => .fuel
  | f + 1, pos, v, ts, ds =>
    match entryHead X v pos ts with
    | .nothing => .nothing
    | .fail v' ds' => .fail v' (ds ++ ds')
    | .panic => .panic
    | .empty r ds' => .ok v r (ds ++ ds')
    | .at v' pos' last suf r ds' =>
      match r with
      | .lbrace :: r' =>
        match step v' pos' last with
        | none => .panic
        | some (v'', pos'', ds'') => treeEntries X f pos'' true v'' r' (ds ++ ds' ++ ds'')
      | .assign :: r' => assignEntry X v' pos' last suf r' (ds ++ ds')
      | .lparen :: r' => procEntry X v' pos' last r' (ds ++ ds')
      | r =>
        match pos'.vt with
        | some vt => bareVar X v' pos'.cur vt last suf r (ds ++ ds')
        | none => bareEntry v' pos' last r (ds ++ ds')
end

/-- `root` (parser.rs:660-662) -/
def Pos.root : Pos := ⟨0, none, none⟩

/-- `run` (parser.rs:439-449), from a given tree -/
def run (X : Parsers E C) (v : Env E C) (ts : List Tok) : Out E C :=
  treeEntries X (2 * ts.length + 1) .root false v ts []

/-- the empty tree (objtree.rs:837-866) -/
def Env.init : Env E C := ⟨.init, [], []⟩

end

end Verif.Decl
