import Verif.Refs.Model

/-!
# Model of "Find References": statements, procs and the table

`crates/dm-langserver/src/find_references.rs`, lines 8-113 and 150-457.
-/

namespace Verif.Refs

open Verif.Typing (Ident Loc PathOp Tree VarDecl Proc modifiers)

/-- `Case` (crates/dreammaker/src/ast.rs:1569-1573). -/
inductive Case
  | exact (e : Expr)
  | range (a b : Expr)

/-- `VarStatement` (ast.rs:1562-1567). -/
structure VarDef where
  path : List Ident
  name : Ident
  value : Option Expr

mutual

/-- `Statement` (ast.rs:1502-1560).  `Var` and `Vars` are one; of variable types only the path is kept. -/
inductive Stmt
  | expr (e : Expr)
  | ret (e : Option Expr)
  | throw (e : Expr)
  | while (c : Expr) (b : Block)
  | doWhile (b : Block) (l : Loc) (c : Expr)
  | ifs (arms : Arms)
  | forever (b : Block)
  | for (init : Head) (test : Option Expr) (inc : Head) (b : Block)
  | forIn (ty : Option (List Ident)) (n : Ident) (list : Option Expr) (b : Block)
  | forTo (ty : Option (List Ident)) (n : Ident) (start stop : Expr) (step : Option Expr) (b : Block)
  | forPairs (ty : Option (List Ident)) (k v : Ident) (list : Option Expr) (b : Block)
  | vars (ds : List VarDef)
  | setting (n : Ident) (value : Expr)
  | spawn (delay : Option Expr) (b : Block)
  | switch (input : Expr) (cases : Cases)
  | tryCatch (b : Block) (params : List (List Ident)) (handler : Block)
  | cont
  | brk
  | goto (label : Ident)
  | crash (e : Option Expr)
  | label (n : Ident) (b : Block)
  | del (e : Expr)

/-- Statements one after the other, each with its place. -/
inductive Block
  | nil
  | cons (l : Loc) (s : Stmt) (b : Block)

/-- An optional statement in the head of a `for`. -/
inductive Head
  | none
  | some (s : Stmt)

/-- The arms of an `if`, each with the place of its condition. -/
inductive Arms
  | noElse
  | els (b : Block)
  | cons (l : Loc) (c : Expr) (b : Block) (rest : Arms)

/-- The cases of a `switch`, each with its place. -/
inductive Cases
  | noDefault
  | dflt (b : Block)
  | cons (l : Loc) (ks : List Case) (b : Block) (rest : Cases)

end

/-- `ReferencesTable` (find_references.rs:8-17) while it is made: the places where a symbol is used and implemented, and
the number of symbols made for local variables. -/
structure Tab where
  refs : Sym → List Loc
  impls : Sym → List Loc
  next : Nat

/-- `use_symbol` (find_references.rs:104-110) for some uses one after the other. -/
def Tab.use (t : Tab) (us : List Use) : Tab :=
  us.foldl (fun t u => { t with refs := fun s => if s = u.1 then t.refs s ++ [u.2] else t.refs s }) t

/-- `impl_symbol` (find_references.rs:112-118). -/
def Tab.impl (t : Tab) (s : Sym) (l : Loc) : Tab :=
  { t with impls := fun s' => if s' = s then t.impls s' ++ [l] else t.impls s' }

/-- `new_symbol` (find_references.rs:92-102): the entry of the new symbol is put into the table, whatever was there. -/
def Tab.new (t : Tab) (l : Loc) : Tab :=
  { refs := fun s => if s = .local t.next then [l] else t.refs s
    impls := fun s => if s = .local t.next then [] else t.impls s
    next := t.next + 1 }

/-- What changes while a proc is walked: `local_vars` and the table. -/
structure St where
  env : Ident → Option Local
  tab : Tab

/-- A table of local variables with one more entry. -/
def bind (env : Ident → Option Local) (n : Ident) (v : Local) : Ident → Option Local :=
  fun m => if m = n then some v else env m

/-- `visit_expression` of an expression in a statement. -/
def St.expr (c : Ctx) (s : St) (l : Loc) (hint : Option Nat) (e : Expr) : St :=
  { s with tab := s.tab.use (visitExpr { c with locals := s.env } l hint e).2 }

/-- The same for an optional expression. -/
def St.opt (c : Ctx) (s : St) (l : Loc) (hint : Option Nat) : Option Expr → St
  | none => s
  | some e => s.expr c l hint e

/-- `visit_var` (find_references.rs:425-446): the type is used, the value visited, and the name declared, in this order. -/
def St.var (c : Ctx) (s : St) (l : Loc) (path : List Ident) (n : Ident) (value : Option Expr) : St :=
  let ty := staticType c.tree path
  let s := { s with tab := s.tab.use (useType c.tree l ty) }
  let s := s.opt c l (ty.basic c.tree) value
  { env := bind s.env n ⟨ty, .local s.tab.next⟩, tab := s.tab.new l }

/-- A parameter (find_references.rs:213-228): its default value is visited without a type hint. -/
def St.param (c : Ctx) (s : St) (p : Param) : St :=
  let ty := staticType c.tree p.path
  let s := { s with tab := s.tab.use (useType c.tree p.loc ty) }
  let s := s.opt c p.loc none p.default
  { env := bind s.env p.name ⟨ty, .local s.tab.next⟩, tab := s.tab.new p.loc }

/-- An optional variable of a loop (find_references.rs:310-312, 330-332, 406-408). -/
def St.optVar (c : Ctx) (s : St) (l : Loc) (n : Ident) (value : Option Expr) : Option (List Ident) → St
  | none => s
  | some path => s.var c l path n value

/-- The parameters of `catch` (find_references.rs:371-382): the last part of the path is the name, and a leading `var` of
the rest does not count. -/
def St.catch (c : Ctx) (s : St) (l : Loc) (p : List Ident) : St :=
  match p.getLast? with
  | none => s
  | some n =>
    s.var c l (match p.dropLast with | "var" :: rest => rest | path => path) n none

/-- The values of a case (find_references.rs:353-363). -/
def St.case (c : Ctx) (s : St) (l : Loc) : Case → St
  | .exact e => s.expr c l none e
  | .range a b => (s.expr c l none a).expr c l none b

mutual

/-- `visit_statement` (find_references.rs:238-420). -/
def visitStmt (c : Ctx) (s : St) (l : Loc) : Stmt → St
  | .expr e => s.expr c l none e
  | .ret e =>
    let s := match s.env "." with
      | some v => { s with tab := s.tab.use [(v.sym, l)] }
      | none => s
    s.opt c l none e
  | .throw e => s.expr c l none e
  | .while k b => visitBlock c (s.expr c l none k) b
  | .doWhile b kl k => (visitBlock c s b).expr c kl none k
  | .ifs arms => visitArms c s arms
  | .forever b => visitBlock c s b
  | .for init test inc b => visitBlock c (visitHead c ((visitHead c s l init).opt c l none test) l inc) b
  | .forIn ty n list b => visitBlock c ((s.opt c l none list).optVar c l n none ty) b
  | .forTo ty n start stop step b =>
    visitBlock c (((s.expr c l none stop).opt c l none step).optVar c l n (some start) ty) b
  | .forPairs ty k v list b =>
    visitBlock c (((s.opt c l none list).optVar c l k none ty).var c l [] v none) b
  | .vars ds => ds.foldl (fun s d => s.var c l d.path d.name d.value) s
  | .setting _ _ => s
  | .spawn delay b => visitBlock c (s.opt c l none delay) b
  | .switch input cases => visitCases c (s.expr c l none input) cases
  | .tryCatch b params handler => visitBlock c (params.foldl (fun s p => s.catch c l p) (visitBlock c s b)) handler
  | .cont => s
  | .brk => s
  | .goto _ => s
  | .crash _ => s
  | .label _ b => visitBlock c s b
  | .del e => s.expr c l none e

/-- `visit_block` (find_references.rs:232-236). -/
def visitBlock (c : Ctx) (s : St) : Block → St
  | .nil => s
  | .cons l x b => visitBlock c (visitStmt c s l x) b

/-- A statement in the head of a `for` (find_references.rs:288-296). -/
def visitHead (c : Ctx) (s : St) (l : Loc) : Head → St
  | .none => s
  | .some x => visitStmt c s l x

/-- The arms of an `if` (find_references.rs:268-276). -/
def visitArms (c : Ctx) (s : St) : Arms → St
  | .noElse => s
  | .els b => visitBlock c s b
  | .cons l k b rest => visitArms c (visitBlock c (s.expr c l none k) b) rest

/-- The cases of a `switch` (find_references.rs:350-369). -/
def visitCases (c : Ctx) (s : St) : Cases → St
  | .noDefault => s
  | .dflt b => visitBlock c s b
  | .cons l ks b rest => visitCases c (visitBlock c (ks.foldl (fun s k => s.case c l k) s) b) rest

end

/-- A definition of a proc: `ProcValue` (crates/dreammaker/src/objtree.rs:101-108). -/
structure Def where
  loc : Loc
  params : List Param
  code : Option Block

/-- The finished `ObjectTree` as far as the table reads it: the types in the order of `recurse` (objtree.rs:309-314), their
places, their variables with place and value, and their procs with their definitions. -/
structure Prog where
  tree : Tree
  navigate : Nat → PathOp → Ident → Option Nat
  types : List Nat
  tyLoc : Nat → Loc
  vars : Nat → List (Ident × Loc × Option Expr)
  procs : Nat → List (Ident × List Def)

/-- The context of the value of a variable: `from_ty` (find_references.rs:201-219). -/
def Prog.tyCtx (P : Prog) (i : Nat) : Ctx where
  tree := P.tree
  navigate := P.navigate
  ty := i
  proc := none
  locals := bind (fun _ => none) "global" ⟨.type 0, .type 0⟩

/-- A local variable that is there from the start. -/
def St.predefine (s : St) (n : Ident) (ty : STy) (l : Loc) : St :=
  { env := bind s.env n ⟨ty, .local s.tab.next⟩, tab := s.tab.new l }

/-- The local variables at the start of a proc: `from_proc` (find_references.rs:151-199). -/
def Prog.start (P : Prog) (t : Tab) (i : Nat) (l : Loc) : St :=
  let s : St := { env := bind (fun _ => none) "global" ⟨.type 0, .type 0⟩, tab := t }
  let s := s.predefine "." .none l
  let s := s.predefine "args" (.type (P.tree.expect "list")) l
  let s := s.predefine "usr" (.type (P.tree.expect "mob")) l
  if i = 0 then s else s.predefine "src" (.type i) l

/-- The context of a proc; `locals` is filled in at each expression. -/
def Prog.procCtx (P : Prog) (p : Proc) : Ctx where
  tree := P.tree
  navigate := P.navigate
  ty := p.ty
  proc := some p
  locals := fun _ => none

/-- `from_proc` and `run` (find_references.rs:151-230). -/
def Prog.walk (P : Prog) (t : Tab) (p : Proc) (d : Def) (b : Block) : St :=
  visitBlock (P.procCtx p) (d.params.foldl (fun s q => s.param (P.procCtx p) q) (P.start t p.ty d.loc)) b

/-- The definitions of a type in the first pass (find_references.rs:28-46).  `first().unwrap()` does not fail, as a proc
without a definition is not put into the tree. -/
def Prog.define (P : Prog) (t : Tab) (i : Nat) : Tab :=
  let t := { t with
    refs := fun s => if s = .type i then [] else t.refs s
    impls := fun s => if s = .type i then [P.tyLoc i] else t.impls s }
  let t := (P.vars i).foldl (fun t v =>
    match varDecl P.tree i v.1 with
    | some (j, _) => t.impl (.var j v.1) v.2.1
    | none => t) t
  (P.procs i).foldl (fun t q =>
    match procDecl P.tree i q.1, q.2.head? with
    | some j, some d => t.impl (.proc j q.1) d.loc
    | _, _ => t) t

/-- The value of a variable in the second pass (find_references.rs:49-60). -/
def Prog.walkVar (P : Prog) (t : Tab) (i : Nat) (v : Ident × Loc × Option Expr) : Tab :=
  match v.2.2 with
  | none => t
  | some e =>
    let hint := match varDecl P.tree i v.1 with
      | some (_, d) => (staticType P.tree d.path).basic P.tree
      | none => none
    t.use (visitExpr (P.tyCtx i) v.2.1 hint e).2

/-- A definition of a proc in the second pass (find_references.rs:62-66). -/
def Prog.walkDef (P : Prog) (t : Tab) (p : Proc) (d : Def) : Tab :=
  match d.code with
  | none => t
  | some b => (P.walk t p d b).tab

/-- A type in the second pass (find_references.rs:48-67, objtree.rs:487-497). -/
def Prog.walkType (P : Prog) (t : Tab) (i : Nat) : Tab :=
  let t := (P.vars i).foldl (fun t v => P.walkVar t i v) t
  (P.procs i).foldl (fun t q => q.2.zipIdx.foldl (fun t d => P.walkDef t ⟨i, q.1, d.2⟩ d.1) t) t

/-- `ReferencesTable::new` (find_references.rs:20-76) before the lists are sorted. -/
def Prog.table (P : Prog) : Tab :=
  P.types.foldl P.walkType (P.types.foldl P.define { refs := fun _ => [], impls := fun _ => [], next := 0 })

/-- `find_references` (find_references.rs:78-83); the places are sorted (find_references.rs:69-73). -/
def Prog.references (P : Prog) (s : Sym) : List Loc := (P.table.refs s).mergeSort (· ≤ ·)

/-- `find_implementations` (find_references.rs:85-90). -/
def Prog.implementations (P : Prog) (s : Sym) : List Loc := (P.table.impls s).mergeSort (· ≤ ·)

end Verif.Refs
