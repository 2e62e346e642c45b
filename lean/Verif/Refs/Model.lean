import Verif.Typing.Tree

/-!
# Model of "Find References"

`crates/dm-langserver/src/find_references.rs`: the table of the places where each type, variable and proc is used, and of
the places where it is defined.  The object tree is the one of `Verif.Typing.Tree`.

A `SymbolId` is taken to be what it was given out for (C50 shows that different things get different ids): a type, the
declaration of a variable or proc on a type, or the `k`-th symbol that the table itself made for a local variable.
-/

namespace Verif.Refs

open Verif.Typing (Ident Loc PathOp Tree VarDecl Proc modifiers)

/-- `SymbolId` (crates/dreammaker/src/objtree.rs:15-48). -/
inductive Sym
  | type (i : Nat)
  | var (i : Nat) (n : Ident)
  | proc (i : Nat) (n : Ident)
  | local (k : Nat)
  deriving DecidableEq, Repr

/-- `StaticType` (find_references.rs:117-135).  The `list` field is always `/list`. -/
inductive STy
  | none
  | type (i : Nat)
  | list (keys : STy)
  deriving DecidableEq, Repr

/-- `basic_type` (find_references.rs:128-134). -/
def STy.basic (t : Tree) : STy → Option Nat
  | .none => Option.none
  | .type i => some i
  | .list _ => some (t.expect "list")

/-- `Local` (find_references.rs:137-140). -/
structure Local where
  ty : STy
  sym : Sym
  deriving DecidableEq, Repr

mutual

/-- `Expression` (crates/dreammaker/src/ast.rs:947-987).  Of operators, it only matters whether they are `||` and `=`. -/
inductive Expr
  | base (l : Loc) (t : Term) (fs : Follows)
  | binary (isOr : Bool) (x y : Expr)
  | assign (plain : Bool) (x y : Expr)
  | ternary (k x y : Expr)

/-- `Term` (ast.rs:1131-1212).  `plain` stands for the literals in which nothing is used.  The list of `in` is empty or has
one element, the weights and values of `pick` are in one list, and missing arguments of `new` are an empty list. -/
inductive Term
  | plain
  | string (s : Ident)
  | expr (e : Expr)
  | prefab (p : List (PathOp × Ident)) (vs : Vars)
  | interp (es : Exprs)
  | ident (n : Ident)
  | call (n : Ident) (args : Exprs)
  | selfCall (args : Exprs)
  | parentCall (args : Exprs)
  | newImplicit (args : Exprs)
  | newPrefab (p : List (PathOp × Ident)) (vs : Vars) (args : Exprs)
  | newMini (n : Ident) (fields : List Ident) (args : Exprs)
  | list (args : Exprs)
  | locate (args : Exprs) (inList : Exprs)
  | input (args : Exprs) (inList : Exprs)
  | pick (es : Exprs)
  | dynCall (xs ys : Exprs)
  | extCall (lib : Exprs) (fn : Expr) (args : Exprs)
  | globalCall (n : Ident) (args : Exprs)
  | globalIdent (n : Ident)
  | typeMacro
  | procMacro
  | impliedType

/-- The variables of a `Prefab` (ast.rs:917-922). -/
inductive Vars
  | nil
  | cons (n : Ident) (e : Expr) (vs : Vars)

/-- `Follow` (ast.rs:1318-1334); `field` is `Field` and `StaticField`, which are treated alike. -/
inductive Follow
  | unary
  | index (e : Expr)
  | field (n : Ident)
  | call (n : Ident) (args : Exprs)
  | procRef (n : Ident)

inductive Follows
  | nil
  | cons (l : Loc) (f : Follow) (fs : Follows)

inductive Exprs
  | nil
  | cons (e : Expr) (es : Exprs)

end

/-- The same as a list. -/
def Exprs.toList : Exprs → List Expr
  | .nil => []
  | .cons e es => e :: es.toList

/-- The same as a list. -/
def Vars.toList : Vars → List (Ident × Expr)
  | .nil => []
  | .cons n e vs => (n, e) :: vs.toList

/-- Whether an argument is a keyword argument: `as_term` and `as_kwarg_key` (ast.rs:998-1003, 1283-1289). -/
def Expr.isKey : Expr → Bool
  | .base _ (.ident _) .nil => true
  | .base _ (.string _) .nil => true
  | _ => false

/-- What `navigate_path` finds: `NavigatePathResult` (objtree.rs:529-548), of which `Type` and `ProcGroup` are treated
alike. -/
inductive Nav
  | type (i : Nat)
  | proc (p : Proc)
  deriving DecidableEq, Repr

/-- `NavigatePathResult::ty` (objtree.rs:540-548): the type that a path stands for or that the proc it stands for is on. -/
def Nav.ty : Nav → Nat
  | .type i => i
  | .proc p => p.ty

/-- `Parameter` (ast.rs:1409-1416). -/
structure Param where
  loc : Loc
  path : List Ident
  name : Ident
  default : Option Expr

/-- What the visitor knows: `WalkProc` (find_references.rs:142-148) without the table; `navigate` is `TypeRef::navigate`
(objtree.rs:369-400, see C33). -/
structure Ctx where
  tree : Tree
  navigate : Nat → PathOp → Ident → Option Nat
  ty : Nat
  proc : Option Proc
  locals : Ident → Option Local

/-- `TypeRef::get_var_declaration` (objtree.rs:204-219) with the type on which the declaration is. -/
def varDecl (t : Tree) (i : Nat) (n : Ident) : Option (Nat × VarDecl) :=
  (t.chain i).findSome? fun j => (t.vars j n).map fun d => (j, d)

/-- `TypeRef::get_proc_declaration` (objtree.rs:474-485): the type on which the declaration is. -/
def procDecl (t : Tree) (i : Nat) (n : Ident) : Option Nat :=
  (t.chain i).find? fun j => (t.kind j n).isSome

/-- The loop of `navigate_path` (objtree.rs:413-433).  Unlike `Tree.kind`, `ProcDeclKind::from_name` (ast.rs:200-206) is
about the word itself. -/
def Ctx.navFrom (c : Ctx) : Nat → List (PathOp × Ident) → Option Nav
  | i, [] => some (.type i)
  | i, (op, x) :: rest =>
    if x == "proc" || x == "verb" then
      match rest with
      | (_, n) :: _ => (c.tree.getProc i n).map .proc
      | [] => some (.type i)
    else
      match c.navigate i op x with
      | some j => c.navFrom j rest
      | none => none

/-- `navigate_path` (objtree.rs:404-434). -/
def Ctx.nav (c : Ctx) (p : List (PathOp × Ident)) : Option Nav :=
  match p with
  | (.slash, _) :: _ => c.navFrom 0 p
  | _ => c.navFrom c.ty p

/-- `static_type` (find_references.rs:883-917). -/
def staticType (t : Tree) : List Ident → STy
  | [] => .none
  | x :: rest =>
    if modifiers.contains x then staticType t rest
    else if x == "list" then .list (staticType t rest)
    else
      match t.find (x :: rest) with
      | some i => .type i
      | none => .none

/-- A use of a symbol and its place. -/
abbrev Use := Sym × Loc

/-- `use_type` (find_references.rs:448-457). -/
def useType (t : Tree) (l : Loc) : STy → List Use
  | .none => []
  | .type i => [(.type i, l)]
  | .list k => (.type (t.expect "list"), l) :: useType t l k

/-- `visit_ident` (find_references.rs:510-521). -/
def visitIdent (c : Ctx) (l : Loc) (n : Ident) : STy × List Use :=
  match c.locals n with
  | some v => (v.ty, [(v.sym, l)])
  | none =>
    match varDecl c.tree c.ty n with
    | some (j, d) => (staticType c.tree d.path, [(.var j n, l)])
    | none => (.none, [])

/-- `visit_field` (find_references.rs:740-756). -/
def visitField (c : Ctx) (l : Loc) (s : STy) (n : Ident) : STy × List Use :=
  match s.basic c.tree with
  | some i =>
    match varDecl c.tree i n with
    | some (j, d) => (staticType c.tree d.path, [(.var j n, l)])
    | none => (.none, [])
  | none => (.none, [])

/-- The loop over the fields of a mini expression (find_references.rs:591-593). -/
def visitFields (c : Ctx) (l : Loc) : STy → List Ident → List Use
  | _, [] => []
  | s, n :: ns => let r := visitField c l s n; r.2 ++ visitFields c l r.1 ns

/-- The use of a proc by its name (find_references.rs:822-828). -/
def useProc (c : Ctx) (l : Loc) (src : Nat) (n : Ident) : List Use :=
  match procDecl c.tree src n with
  | some j => [(.proc j n, l)]
  | none => []

/-- `visit_prefab` (find_references.rs:710-738); `vars` is what the variables of the prefab use, given the type. -/
def visitPrefab (c : Ctx) (l : Loc) (p : List (PathOp × Ident)) (vars : Nat → List Use) : List Use :=
  match c.nav p with
  | some (.proc q) => useProc c l q.ty q.name
  | some (.type i) => (.type i, l) :: vars i
  | none => []

mutual

/-- `visit_expression` (find_references.rs:459-508). -/
def visitExpr (c : Ctx) (l : Loc) (hint : Option Nat) : Expr → STy × List Use
  | .base tl t fs =>
    let r := visitTerm c tl (match fs with | .nil => hint | .cons _ _ _ => none) t
    let q := visitFollows c r.1 fs
    (q.1, r.2 ++ q.2)
  | .binary true x y => (.none, (visitExpr c l hint x).2 ++ (visitExpr c l hint y).2)
  | .binary false x y => (.none, (visitExpr c l none x).2 ++ (visitExpr c l none y).2)
  | .assign _ x y =>
    let a := visitExpr c l none x
    let b := visitExpr c l (a.1.basic c.tree) y
    (b.1, a.2 ++ b.2)
  | .ternary k x y =>
    let a := visitExpr c l hint x
    (a.1, (visitExpr c l none k).2 ++ a.2 ++ (visitExpr c l hint y).2)

/-- `visit_term` with `visit_new` and `visit_call` (find_references.rs:523-708, 808-862). -/
def visitTerm (c : Ctx) (l : Loc) (hint : Option Nat) : Term → STy × List Use
  | .plain => (.none, [])
  | .string _ => (.none, [])
  | .expr e => visitExpr c l hint e
  | .prefab p vs => (.none, visitPrefab c l p fun i => visitVars c l i vs)
  | .interp es => (.none, visitEach c l es)
  | .ident n => visitIdent c l n
  | .call n args =>
    match c.tree.getProc c.ty n with
    | some p => (.none, useProc c l c.ty p.name ++ visitArgs c l args)
    | none => (.none, [])
  | .selfCall args =>
    match c.proc with
    | some _ => (.none, visitArgs c l args)
    | none => (.none, [])
  | .parentCall args =>
    match c.proc.bind c.tree.parentProc with
    | some _ => (.none, visitArgs c l args)
    | none => (.none, [])
  | .newImplicit args =>
    match hint with
    | some i =>
      match c.tree.getProc i "New" with
      | some _ => (.type i, visitArgs c l args)
      | none => (.type i, [])
    | none => (.none, [])
  | .newPrefab p vs args =>
    match c.nav p with
    | some v =>
      match c.tree.getProc v.ty "New" with
      | some _ => (.type v.ty, (visitPrefab c l p fun i => visitVars c l i vs) ++ visitArgs c l args)
      | none => (.type v.ty, visitPrefab c l p fun i => visitVars c l i vs)
    | none => (.none, visitPrefab c l p fun i => visitVars c l i vs)
  | .newMini n fields _ =>
    let a := visitIdent c l n
    (.none, a.2 ++ visitFields c l a.1 fields)
  | .list args => (.list .none, visitArgs c l args)
  | .locate args inList => (.none, visitArgs c l args ++ visitEach c l inList)
  | .input args inList => (.none, visitArgs c l args ++ visitEach c l inList)
  | .pick es => (.none, visitEach c l es)
  | .dynCall xs ys => (.none, visitArgs c l xs ++ visitArgs c l ys)
  | .extCall lib fn args => (.none, visitEach c l lib ++ (visitExpr c l none fn).2 ++ visitArgs c l args)
  | .globalCall n args =>
    match c.tree.getProc 0 n with
    | some p => (.none, useProc c l 0 p.name ++ visitArgs c l args)
    | none => (.none, visitArgs c l args)
  | .globalIdent n =>
    match varDecl c.tree 0 n with
    | some (j, d) => (staticType c.tree d.path, [(.var j n, l)])
    | none => (.none, [])
  | .typeMacro => (.none, [(.type c.ty, l)])
  | .procMacro =>
    match c.proc with
    | some p => (.none, useProc c l c.ty p.name)
    | none => (.none, [])
  | .impliedType =>
    match hint with
    | some i => (.type i, [(.type i, l)])
    | none => (.none, [])

/-- The loop over the variables of a prefab (find_references.rs:723-733). -/
def visitVars (c : Ctx) (l : Loc) (i : Nat) : Vars → List Use
  | .nil => []
  | .cons n e vs =>
    (match varDecl c.tree i n with
      | some (j, d) => (.var j n, l) :: (visitExpr c l ((staticType c.tree d.path).basic c.tree) e).2
      | none => (visitExpr c l none e).2) ++ visitVars c l i vs

/-- The loop over the follows of an expression with `visit_follow` (find_references.rs:468-473, 758-796). -/
def visitFollows (c : Ctx) (s : STy) : Follows → STy × List Use
  | .nil => (s, [])
  | .cons l f fs =>
    let r := visitFollow c l s f
    let q := visitFollows c r.1 fs
    (q.1, r.2 ++ q.2)

/-- `visit_follow` (find_references.rs:758-796). -/
def visitFollow (c : Ctx) (l : Loc) (s : STy) : Follow → STy × List Use
  | .unary => (.none, [])
  | .index e => ((match s with | .list k => k | _ => .none), (visitExpr c l none e).2)
  | .field n => visitField c l s n
  | .call n args =>
    match s.basic c.tree with
    | some i =>
      match c.tree.getProc i n with
      | some p => (.none, useProc c l i p.name ++ visitArgs c l args)
      | none => (.none, visitArgs c l args)
    | none => (.none, visitArgs c l args)
  | .procRef n =>
    match s.basic c.tree with
    | some i => (.none, useProc c l i n)
    | none => (.none, [])

/-- Expressions that are visited as they are. -/
def visitEach (c : Ctx) (l : Loc) : Exprs → List Use
  | .nil => []
  | .cons e es => (visitExpr c l none e).2 ++ visitEach c l es

/-- `visit_arguments` (find_references.rs:864-880) and the loop of `visit_call` (find_references.rs:831-858): of a keyword
argument only the value is visited. -/
def visitArgs (c : Ctx) (l : Loc) : Exprs → List Use
  | .nil => []
  | .cons (.assign true x y) es =>
    (if x.isKey then (visitExpr c l none y).2 else (visitExpr c l none (.assign true x y)).2) ++ visitArgs c l es
  | .cons e es => (visitExpr c l none e).2 ++ visitArgs c l es

end

end Verif.Refs
