import Verif.Typing.Model

/-!
# Model of return types: `set SpacemanDMM_return_type = ..` and `as ..`

`crates/dreamchecker/src/type_expr.rs` (the compiler of type expressions) and the part of
`AnalyzeObjectTree::gather_settings` (`lib.rs`) that fills `return_type`.  What reads it is `TExpr.eval` and `returnType` in
`Verif.Typing.Model`.
-/

namespace Verif.Typing

/-- Why a type expression is refused (type_expr.rs:174, 195, 208, 232, 239, 256, 262) or `static_type` fails
(lib.rs:1216-1219).  Simplified: the place of the error is left out. -/
inductive AnnErr
  | badNode
  | noParam (n : Ident)
  | badTerm
  | indexNonParam
  | badIndex
  | typeNonParam
  | badFollow
  | undefinedType (p : List Ident)
  deriving DecidableEq, Repr

/-- The search for a parameter (type_expr.rs:183-191): the first one of that name, and its position. -/
def paramIndex : List Ident → Ident → Option Nat
  | [], _ => none
  | p :: ps, n => if n == p then some 0 else (paramIndex ps n).map (· + 1)

/-- `visit_follow` on an index (type_expr.rs:219-241). -/
def compileIndex (lhs : TExpr) (e : Expr) : Except AnnErr TExpr :=
  match e.asTerm with
  | some (.ident n) =>
    if n == "_" then
      match lhs with
      | .paramPath x i k => .ok (.paramPath x i (k + 1))
      | _ => .error .indexNonParam
    else .error .badIndex
  | _ => .error .badIndex

/-- `visit_follow` on a field (type_expr.rs:243-258). -/
def compileField (lhs : TExpr) (n : Ident) : Except AnnErr TExpr :=
  if n == "type" then
    match lhs with
    | .paramPath x i k => .ok (.paramStatic x i k)
    | _ => .error .typeNonParam
  else .error .badFollow

/-- `visit_follow` (type_expr.rs:211-265). -/
def compileFollow (lhs : TExpr) : Follow → Except AnnErr TExpr
  | .index e => compileIndex lhs e
  | .field _ n => compileField lhs n
  | _ => .error .badFollow

/-- The loop over the follows (type_expr.rs:138-140). -/
def compileFollows (lhs : TExpr) : Follows → Except AnnErr TExpr
  | .nil => .ok lhs
  | .cons _ f fs =>
    match compileFollow lhs f with
    | .error e => .error e
    | .ok r => compileFollows r fs

/-- The names of a path, without the separators (type_expr.rs:201, lib.rs:1001-1002). -/
def pathNames (ps : List (PathOp × Ident)) : List Ident := ps.map Prod.snd

/-- `visit_term` on a path (type_expr.rs:200-204). -/
def compilePath (t : Tree) (ps : List (PathOp × Ident)) : Except AnnErr TExpr :=
  match t.staticType (pathNames ps) with
  | .ok s => .ok (.static s)
  | .error p => .error (.undefinedType p)

/-- `visit_term` on a name (type_expr.rs:182-196). -/
def compileParam (params : List Ident) (n : Ident) : Except AnnErr TExpr :=
  match paramIndex params n with
  | some i => .ok (.paramPath n i 0)
  | none => .error (.noParam n)

mutual

/-- `visit_expression` (type_expr.rs:130-176). -/
def compileExpr (t : Tree) (params : List Ident) : Expr → Except AnnErr TExpr
  | .base _ x fs =>
    match compileTerm t params x with
    | .error e => .error e
    | .ok r => compileFollows r fs
  | .binary .or a b =>
    match compileExpr t params a, compileExpr t params b with
    | .error e, _ => .error e
    | .ok _, .error e => .error e
    | .ok x, .ok y => .ok (.cond x x y)
  | .binary .and a b =>
    match compileExpr t params a, compileExpr t params b with
    | .error e, _ => .error e
    | .ok _, .error e => .error e
    | .ok x, .ok y => .ok (.cond x y x)
  | .ternary c a b =>
    match compileExpr t params c, compileExpr t params a, compileExpr t params b with
    | .error e, _, _ => .error e
    | .ok _, .error e, _ => .error e
    | .ok _, .ok _, .error e => .error e
    | .ok z, .ok x, .ok y => .ok (.cond z x y)
  | _ => .error .badNode

/-- `visit_term` (type_expr.rs:178-209). -/
def compileTerm (t : Tree) (params : List Ident) : Term → Except AnnErr TExpr
  | .null => .ok (.static .none)
  | .ident n => compileParam params n
  | .expr e => compileExpr t params e
  | .prefab ps => compilePath t ps
  | _ => .error .badTerm

end

/-- The words of an `InputType` (ast.rs:528-555), which is modelled as its bits. -/
inductive InputWord
  | mob | obj | text | num | file | turf | key | null | area | icon | sound | message | anything | password | commandText
  | color | movable | atom | list
  deriving DecidableEq, Repr

/-- The bits of a word (ast.rs:534-555). -/
def InputWord.bits : InputWord → Nat
  | .mob => 2 ^ 0
  | .obj => 2 ^ 1
  | .text => 2 ^ 2
  | .num => 2 ^ 3
  | .file => 2 ^ 4
  | .turf => 2 ^ 5
  | .key => 2 ^ 6
  | .null => 2 ^ 7
  | .area => 2 ^ 8
  | .icon => 2 ^ 9
  | .sound => 2 ^ 10
  | .message => 2 ^ 11
  | .anything => 2 ^ 12
  | .password => 2 ^ 15
  | .commandText => 2 ^ 16
  | .color => 2 ^ 17
  | .movable => 2 ^ 1 ||| 2 ^ 0
  | .atom => 2 ^ 8 ||| 2 ^ 5 ||| 2 ^ 1 ||| 2 ^ 0
  | .list => 2 ^ 31

/-- `a|b|c` (crates/dreammaker/src/parser.rs, `input_type`): the bits of all words together. -/
def inputBits (ws : List InputWord) : Nat := ws.foldl (fun b w => b ||| w.bits) 0

/-- `InputType::to_typepath` (ast.rs:564-586).  `self.difference(X).is_empty()` is `self & X = self`. -/
def InputType.typePath (b : Nat) : Option (List Ident) :=
  if b = 0 then none
  else if b = InputWord.bits .mob then some ["mob"]
  else if b = InputWord.bits .obj then some ["obj"]
  else if b = InputWord.bits .turf then some ["turf"]
  else if b = InputWord.bits .area then some ["area"]
  else if b = InputWord.bits .list then some ["list"]
  else if b &&& InputWord.bits .movable = b then some ["atom", "movable"]
  else if b &&& InputWord.bits .atom = b then some ["atom"]
  else none

/-- `ProcReturnType` (ast.rs:309-312). -/
inductive DeclReturn
  | words (b : Nat)
  | path (p : List Ident)
  deriving DecidableEq, Repr

/-- A `set name = value` in the body of a proc. -/
structure Setting where
  name : Ident
  value : Expr

/-- What is read of a program besides its tree: the return type in the declaration of a proc on a type
(`ProcDeclaration::return_type`, objtree.rs:87-98; `none` when the type does not declare the proc), and the settings in the
code of a definition (`none` when it has no code). -/
structure Returns where
  tree : Tree
  declares : Nat → Ident → Option DeclReturn
  code : Proc → Option (List Setting)

/-- `TypeRef::get_proc_declaration` (objtree.rs:474-485). -/
def Returns.declOf (g : Returns) (p : Proc) : Option DeclReturn := (g.tree.chain p.ty).findSome? fun j => g.declares j p.name

/-- The return type in the declaration (lib.rs:974-990). -/
def Returns.declared (g : Returns) (p : Proc) : Option TExpr :=
  match g.declOf p with
  | none => none
  | some (.words b) => ((InputType.typePath b).bind g.tree.find).map fun i => .static (.type i)
  | some (.path q) =>
    match g.tree.staticType q with
    | .ok s => some (.static s)
    | .error _ => none

/-- The name of the setting (lib.rs:999). -/
def returnSetting : Ident := "SpacemanDMM_return_type"

/-- What one `set SpacemanDMM_return_type` does (lib.rs:1000-1014): what goes into the map, and the error. -/
def annotate (t : Tree) (params : List Ident) (e : Expr) : Option TExpr × Option AnnErr :=
  match e.asTerm with
  | some (.prefab ps) =>
    match t.staticType (pathNames ps) with
    | .ok s => (some (.static s), none)
    | .error p => (some (.static .none), some (.undefinedType p))
  | _ =>
    match compileExpr t params e with
    | .ok x => (some x, none)
    | .error err => (none, some err)

/-- The loop over the statements (lib.rs:992-1026), of which only the settings of the return type matter here. -/
def gatherLoop (t : Tree) (params : List Ident) : Option TExpr → List Setting → Option TExpr × List AnnErr
  | cur, [] => (cur, [])
  | cur, s :: rest =>
    if s.name == returnSetting then
      let r := annotate t params s.value
      let next := gatherLoop t params (match r.1 with | some x => some x | none => cur) rest
      (next.1, r.2.toList ++ next.2)
    else gatherLoop t params cur rest

/-- What the map starts with (lib.rs:640-645). -/
def Returns.initial (g : Returns) (p : Proc) : Option TExpr :=
  if g.tree.getProc 0 "get_step" = some p then some (.static (.type (g.tree.expect "turf"))) else none

/-- `gather_settings` (lib.rs:958-1026) of one definition: its entry in `return_type`, and the errors. -/
def Returns.gather (g : Returns) (p : Proc) : Option TExpr × List AnnErr :=
  match g.code p with
  | none => (g.initial p, [])
  | some ss =>
    gatherLoop g.tree (g.tree.info p).params (match g.declared p with | some x => some x | none => g.initial p) ss

/-- `return_type` after all procs have been gone through (lib.rs:361-367); the entries of different procs do not touch each
other. -/
def Returns.table (g : Returns) (p : Proc) : Option TExpr := (g.gather p).1

end Verif.Typing
