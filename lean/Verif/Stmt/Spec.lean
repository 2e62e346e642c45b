import Verif.Stmt.Model
import Verif.Decl.Spec

/-!
# How statements are written, and what they mean

A grammar of proc bodies.  `toks` is how something is written, `val` what it means, `warns` the messages about it.
`Ok X rest` says that it is well-formed with the tokens `rest` after it; `rest` matters for expressions, which are
whatever the expression parser reads there, for `else`, and for the `;` that the last statement of a block may lack.
-/

namespace Verif.Stmt

open Verif.Objtree (Ident)
open Verif.Decl (Tok kw VarTy InTy Init PathW ExprW AsW SpecW flagsOf flagWords withList sufInit sufToks initToks SufOk)

variable {E : Type}

/-- the expression parser reads exactly this expression before `rest` -/
def Reads (X : ExprP E) (e : ExprW E) (rest : List Tok) : Prop := X.expr (e.toks ++ rest) = some (some (e.val, rest))

/-- an expression that may be missing -/
def optToks : Option (ExprW E) → List Tok
  | none => []
  | some e => e.toks

def OptReads (X : ExprP E) (e : Option (ExprW E)) (rest : List Tok) : Prop :=
  match e with
  | none => X.expr rest = some none
  | some e => Reads X e rest

/-- words that an expression statement does not start with -/
def words : List Ident :=
  ["if", "while", "do", "for", "spawn", "switch", "try", "set", "break", "continue", "del", "var", "return", "CRASH",
    "throw", "goto"].map kw

def Starts : List Tok → Prop
  | [] => False
  | .ident s :: _ => s ∉ words
  | .lbrace :: _ | .rbrace :: _ | .semi :: _ => False
  | _ :: _ => True

/-- what follows a statement that does not end in `;` -/
def AtEnd : List Tok → Prop
  | .rbrace :: _ => True
  | _ => False

/-- what may follow the variable in the head of a `for` -/
def ForEnds : List Tok → Prop
  | .semi :: _ | .comma :: _ | .rparen :: _ | .in_ :: _ | .ident _ :: _ => True
  | _ => False

/-! ## Simple statements -/

/-- a local variable: `/type/name[size] = value as type in list` -/
structure VarW (E : Type) where
  path : PathW
  suf : List (Option (ExprW E)) := []
  init : Option (ExprW E) := none
  spec : SpecW E := {}

def VarW.toks (v : VarW E) : List Tok := v.path.toks ++ sufToks v.suf ++ initToks v.init ++ v.spec.toks

/-- the flags of a local variable are the words in front of its type -/
def VarW.flags (v : VarW E) : List Ident := v.path.dirs.takeWhile fun w => decide (w ∈ flagWords)

def VarW.val (v : VarW E) : VarS E where
  ty := withList v.suf
    { flags := flagsOf v.flags
      path := v.path.dirs.dropWhile fun w => decide (w ∈ flagWords) }
  name := v.path.last
  value :=
    match v.init with
    | some e => some (.expr e.val)
    | none => sufInit v.suf

def VarW.warns (v : VarW E) : List Diag :=
  (if kw "tmp" ∈ v.flags then [.tmpNoEffect] else [])
    ++ (if kw "final" ∈ v.flags ∨ kw "SpacemanDMM_final" ∈ v.flags then [.finalNoEffect] else [])
    ++ (if kw "SpacemanDMM_private" ∈ v.flags then [.privNoEffect] else [])
    ++ (if kw "SpacemanDMM_protected" ∈ v.flags then [.protNoEffect] else [])
    ++ (if v.spec.as_.val.isSome ∨ v.spec.in_.isSome then [.asLocalVar] else [])

def VarW.Ok (X : ExprP E) (v : VarW E) (rest : List Tok) : Prop :=
  v.path.trail = false ∧ SufOk X.decl v.suf ∧ (∀ e ∈ v.init, Reads X e (v.spec.toks ++ rest)) ∧ v.spec.Ok X.decl

/-- `, a, b` -/
def moreVars : List (VarW E) → List Tok
  | [] => []
  | v :: vs => .comma :: v.toks ++ moreVars vs

def VarsOk (X : ExprP E) (rest : List Tok) : List (VarW E) → Prop
  | [] => True
  | v :: vs => v.Ok X (moreVars vs ++ rest) ∧ VarsOk X rest vs

inductive SimpleW (E : Type) where
  | expr (e : ExprW E)
  | ret (e : Option (ExprW E))
  | throw_ (e : ExprW E)
  | crash (e : Option (ExprW E))
  | goto (l : Ident)
  | vars (v : VarW E) (vs : List (VarW E))

def SimpleW.toks : SimpleW E → List Tok
  | .expr e => e.toks
  | .ret e => .ident (kw "return") :: optToks e
  | .throw_ e => .ident (kw "throw") :: e.toks
  | .crash e => .ident (kw "CRASH") :: .lparen :: optToks e ++ [.rparen]
  | .goto l => [.ident (kw "goto"), .ident l]
  | .vars v vs => .ident (kw "var") :: v.toks ++ moreVars vs

def SimpleW.val : SimpleW E → Simple E
  | .expr e => .expr e.val
  | .ret e => .ret (e.map ExprW.val)
  | .throw_ e => .throw_ e.val
  | .crash e => .crash (e.map ExprW.val)
  | .goto l => .goto l
  | .vars v [] => .var v.val
  | .vars v (w :: vs) => .vars (v.val :: w.val :: vs.map VarW.val)

def SimpleW.warns : SimpleW E → List Diag
  | .vars v vs => (v :: vs).flatMap VarW.warns
  | _ => []

def SimpleW.Ok (X : ExprP E) (s : SimpleW E) (rest : List Tok) : Prop :=
  match s with
  | .expr e => Starts e.toks ∧ Reads X e rest
  | .ret e => OptReads X e rest
  | .throw_ e => Reads X e rest
  | .crash e => OptReads X e (.rparen :: rest)
  | .goto _ => True
  | .vars v vs => VarsOk X rest (v :: vs)

/-- in the head of a `for` there is one variable, without `as` and `in`, which have a meaning of their own there -/
def SimpleW.InFor : SimpleW E → Prop
  | .vars v vs => vs = [] ∧ v.spec = {}
  | _ => True

def optSimple : Option (SimpleW E) → List Tok
  | none => []
  | some s => s.toks

/-- the first part of a `for` -/
def InitOk (X : ExprP E) (i : Option (SimpleW E)) (rest : List Tok) : Prop := ∀ s ∈ i, s.Ok X rest ∧ s.InFor

/-! ## Loops -/

/-- the variable of a loop: `var/type/x` or `x` -/
inductive LoopVar (E : Type) where
  | var (v : VarW E)
  | name (n : Ident) (e : ExprW E)

def LoopVar.toks : LoopVar E → List Tok
  | .var v => .ident (kw "var") :: v.toks
  | .name _ e => e.toks

def LoopVar.ty : LoopVar E → Option VarTy
  | .var v => some v.val.ty
  | .name _ _ => none

def LoopVar.ident : LoopVar E → Ident
  | .var v => v.path.last
  | .name n _ => n

def LoopVar.warns : LoopVar E → List Diag
  | .var v => v.warns
  | .name _ _ => []

def LoopVar.Ok (X : ExprP E) (v : LoopVar E) (rest : List Tok) : Prop :=
  match v with
  | .var v => v.Ok X rest ∧ v.spec = {} ∧ v.val.value = none
  | .name n e => Starts e.toks ∧ Reads X e rest ∧ X.ident e.val = some n

/-- ` step e` -/
def stepToks : Option (ExprW E) → List Tok
  | none => []
  | some e => .ident (kw "step") :: e.toks

def StepOk (X : ExprP E) (step : Option (ExprW E)) (rest : List Tok) : Prop := ∀ e ∈ step, Reads X e rest

inductive ForW (E : Type) where
  /-- `for()` -/
  | infinite
  /-- `for(init; test)`, `for(init; test; inc)` -/
  | semi (init : Option (SimpleW E)) (test : Option (ExprW E)) (inc : Option (Option (SimpleW E)))
  /-- `for(init, test, inc)` -/
  | comma (init : Option (SimpleW E)) (test : Option (ExprW E)) (inc : SimpleW E)
  /-- `for(init, test)`, or with a `,` at the end -/
  | two (init : Option (SimpleW E)) (test : Option (ExprW E)) (trail : Bool)
  /-- `for(key as type, value in list)`, where `e` is `value in list` -/
  | keyValue (key : LoopVar E) (as_ : AsW) (e : ExprW E) (value : Ident) (l : E) (trail : Bool)
  /-- `for(var as type)`, `for(var as type in list)` -/
  | list (v : LoopVar E) (as_ : AsW) (in_ : Option (ExprW E))
  /-- `for(x in list)`, where that is one expression -/
  | listExpr (e : ExprW E) (x : Ident) (l : E)
  /-- `for(var/x = a to b step c)` -/
  | rangeVar (v : VarW E) (start : Init E) (stop : ExprW E) (step : Option (ExprW E))
  /-- `for(x = a to b step c)`, where `e` is `x = a` -/
  | rangeAssign (e : ExprW E) (x : Ident) (start : E) (stop : ExprW E) (step : Option (ExprW E))
  /-- `for(var/x in a to b step c)` -/
  | rangeIn (v : LoopVar E) (as_ : AsW) (start stop : ExprW E) (step : Option (ExprW E))
  /-- `for(x in a to b step c)`, where `e` is `x in a to b` -/
  | rangeExpr (e : ExprW E) (x : Ident) (start stop : E) (step : Option (ExprW E))

/-- without the parentheses -/
def ForW.toks : ForW E → List Tok
  | .infinite => []
  | .semi init test inc =>
    optSimple init ++ .semi :: optToks test ++
      match inc with
      | none => []
      | some inc => .semi :: optSimple inc
  | .comma init test inc => optSimple init ++ .comma :: optToks test ++ .comma :: inc.toks
  | .two init test trail => optSimple init ++ .comma :: optToks test ++ if trail then [.comma] else []
  | .keyValue key as_ e _ _ trail => key.toks ++ as_.toks ++ .comma :: e.toks ++ if trail then [.comma] else []
  | .list v as_ in_ =>
    v.toks ++ as_.toks ++
      match in_ with
      | none => []
      | some e => .in_ :: e.toks
  | .listExpr e _ _ => e.toks
  | .rangeVar v _ stop step => .ident (kw "var") :: v.toks ++ .ident (kw "to") :: stop.toks ++ stepToks step
  | .rangeAssign e _ _ stop step => e.toks ++ .ident (kw "to") :: stop.toks ++ stepToks step
  | .rangeIn v as_ start stop step =>
    v.toks ++ as_.toks ++ .in_ :: start.toks ++ .ident (kw "to") :: stop.toks ++ stepToks step
  | .rangeExpr e _ _ _ step => e.toks ++ stepToks step

/-- the `as` of a list loop is read and then forgotten, see `list_loop_forgets_its_type` -/
def ForW.val : ForW E → ForHead E
  | .infinite => .infinite
  | .semi init test inc =>
    .loop (init.map SimpleW.val) (test.map ExprW.val) ((inc.bind id).map SimpleW.val)
  | .comma init test inc => .loop (init.map SimpleW.val) (test.map ExprW.val) (some inc.val)
  | .two init test _ => .loop (init.map SimpleW.val) (test.map ExprW.val) none
  | .keyValue key as_ _ value l _ => .keyValue key.ty key.ident as_.val value l
  | .list v _ in_ => .list v.ty v.ident none (in_.map ExprW.val)
  | .listExpr _ x l => .list none x none (some l)
  | .rangeVar v start stop step => .range (some v.val.ty) v.path.last start stop.val (step.map ExprW.val)
  | .rangeAssign _ x start stop step => .range none x (.expr start) stop.val (step.map ExprW.val)
  | .rangeIn v _ start stop step => .range v.ty v.ident (.expr start.val) stop.val (step.map ExprW.val)
  | .rangeExpr _ x start stop step => .range none x (.expr start) stop (step.map ExprW.val)

def ForW.warns : ForW E → List Diag
  | .infinite => []
  | .semi init _ inc =>
    (init.elim [] SimpleW.warns) ++ ((inc.bind id).elim [] SimpleW.warns)
  | .comma init _ inc => (init.elim [] SimpleW.warns) ++ inc.warns
  | .two init _ _ => (init.elim [] SimpleW.warns)
  | .keyValue key _ _ _ _ _ => key.warns
  | .list v _ _ => v.warns
  | .listExpr _ _ _ => []
  | .rangeVar v _ _ _ => v.warns
  | .rangeAssign _ _ _ _ _ => []
  | .rangeIn v _ _ _ _ => v.warns
  | .rangeExpr _ _ _ _ _ => []

/-- `rest` are the tokens after the `)` -/
def ForW.Ok (X : ExprP E) (h : ForW E) (rest : List Tok) : Prop :=
  match h with
  | .infinite => True
  | .semi init test none =>
    InitOk X init (.semi :: optToks test ++ .rparen :: rest) ∧ OptReads X test (.rparen :: rest)
  | .semi init test (some inc) =>
    InitOk X init (.semi :: optToks test ++ .semi :: optSimple inc ++ .rparen :: rest)
      ∧ OptReads X test (.semi :: optSimple inc ++ .rparen :: rest) ∧ ∀ s ∈ inc, s.Ok X (.rparen :: rest)
  | .comma init test inc =>
    InitOk X init (.comma :: optToks test ++ .comma :: inc.toks ++ .rparen :: rest)
      ∧ OptReads X test (.comma :: inc.toks ++ .rparen :: rest) ∧ inc.Ok X (.rparen :: rest)
  | .two init test trail =>
    InitOk X init (.comma :: optToks test ++ (if trail then [.comma] else []) ++ .rparen :: rest)
      ∧ OptReads X test ((if trail then [.comma] else []) ++ .rparen :: rest) ∧ ∀ e ∈ test, X.asIn e.val = none
  | .keyValue key as_ e value l trail =>
    key.Ok X (as_.toks ++ .comma :: e.toks ++ (if trail then [.comma] else []) ++ .rparen :: rest) ∧ as_.Ok
      ∧ Reads X e ((if trail then [.comma] else []) ++ .rparen :: rest)
      ∧ ∃ v, X.asIn e.val = some (v, l) ∧ X.ident v = some value
  | .list v as_ none => v.Ok X (as_.toks ++ .rparen :: rest) ∧ as_.Ok
  | .list v as_ (some e) =>
    v.Ok X (as_.toks ++ .in_ :: e.toks ++ .rparen :: rest) ∧ as_.Ok ∧ Reads X e (.rparen :: rest)
  | .listExpr e x l =>
    Starts e.toks ∧ Reads X e (.rparen :: rest) ∧ X.asTo l = none
      ∧ ∃ v, X.asIn e.val = some (v, l) ∧ X.ident v = some x
  | .rangeVar v start stop step =>
    v.Ok X (.ident (kw "to") :: stop.toks ++ stepToks step ++ .rparen :: rest) ∧ v.spec = {} ∧ v.val.value = some start
      ∧ Reads X stop (stepToks step ++ .rparen :: rest) ∧ StepOk X step (.rparen :: rest)
  | .rangeAssign e x start stop step =>
    Starts e.toks ∧ Reads X e (.ident (kw "to") :: stop.toks ++ stepToks step ++ .rparen :: rest)
      ∧ (∃ l, X.asAssign e.val = some (l, start) ∧ X.ident l = some x)
      ∧ Reads X stop (stepToks step ++ .rparen :: rest) ∧ StepOk X step (.rparen :: rest)
  | .rangeIn v as_ start stop step =>
    v.Ok X (as_.toks ++ .in_ :: start.toks ++ .ident (kw "to") :: stop.toks ++ stepToks step ++ .rparen :: rest)
      ∧ as_.Ok ∧ Reads X start (.ident (kw "to") :: stop.toks ++ stepToks step ++ .rparen :: rest)
      ∧ Reads X stop (stepToks step ++ .rparen :: rest) ∧ StepOk X step (.rparen :: rest)
  | .rangeExpr e x start stop step =>
    Starts e.toks ∧ Reads X e (stepToks step ++ .rparen :: rest)
      ∧ (∃ l r, X.asIn e.val = some (l, r) ∧ X.ident l = some x ∧ X.asTo r = some (start, stop))
      ∧ StepOk X step (.rparen :: rest)

/-! ## Statements -/

/-- a case of a `switch`: `e` or `a to b` -/
inductive CaseW (E : Type) where
  | exact (e : ExprW E)
  | range (a b : ExprW E)

def CaseW.toks : CaseW E → List Tok
  | .exact e => e.toks
  | .range a b => a.toks ++ .ident (kw "to") :: b.toks

def CaseW.val : CaseW E → Case E
  | .exact e => .exact e.val
  | .range a b => .range a.val b.val

/-- an expression is not mistaken for the end of the list -/
def CaseW.Ok (X : ExprP E) (c : CaseW E) (rest : List Tok) : Prop :=
  match c with
  | .exact e => Reads X e rest
  | .range a b => Reads X a (.ident (kw "to") :: b.toks ++ rest) ∧ Reads X b rest

/-- separated by commas -/
def caseToks : List (CaseW E) → List Tok
  | [] => []
  | [c] => c.toks
  | c :: d :: cs => c.toks ++ .comma :: caseToks (d :: cs)

def CasesOk (X : ExprP E) (rest : List Tok) : List (CaseW E) → Prop
  | [] => True
  | [c] => c.Ok X rest
  | c :: d :: cs => c.Ok X (.comma :: caseToks (d :: cs) ++ rest) ∧ CasesOk X rest (d :: cs)

/-- the parameters of `catch`, separated by commas -/
def pathsToks : List PathW → List Tok
  | [] => []
  | [p] => p.toks
  | p :: q :: ps => p.toks ++ .comma :: pathsToks (q :: ps)

def semis (k : Nat) : List Tok := List.replicate k .semi

/-- the `;` that ends a statement -/
def endToks (ended : Bool) : List Tok := if ended then [.semi] else []

mutual
inductive SBlock (E : Type) where
  /-- `{ … }` -/
  | braces (items : SItems E)
  /-- `;` -/
  | empty
  /-- nothing, before a `}` -/
  | omitted
  /-- one statement -/
  | line (s : SStmt E)

/-- what is between `{` and `}` -/
inductive SItems (E : Type) where
  | nil
  | semi (rest : SItems E)
  | cons (s : SStmt E) (rest : SItems E)

inductive SStmt (E : Type) where
  | simple (s : SimpleW E) (ended : Bool)
  | if_ (c : ExprW E) (b : SBlock E) (els : SElse E)
  | while_ (c : ExprW E) (b : SBlock E)
  | doWhile (b : SBlock E) (k : Nat) (c : ExprW E) (ended : Bool)
  | for_ (h : ForW E) (b : SBlock E)
  /-- `spawn block`, `spawn() block`, `spawn(e) block` -/
  | spawn (d : Option (Option (ExprW E))) (b : SBlock E)
  | switch (e : ExprW E) (cs : SCases E)
  /-- `try block catch block`, `try block catch(var/exception/e) block` -/
  | tryCatch (b : SBlock E) (k : Nat) (ps : Option (List PathW)) (b' : SBlock E)
  | setting (n : Ident) (m : Mode) (e : ExprW E) (ended : Bool)
  | break_ (l : Option Ident) (ended : Bool)
  | continue_ (l : Option Ident) (ended : Bool)
  | del (e : ExprW E) (ended : Bool)
  | label (n : Ident) (e : ExprW E) (b : SBlock E)

/-- what is after a block of an `if`; `k` is how many `;` are in front of it -/
inductive SElse (E : Type) where
  | none (k : Nat)
  | elif (k : Nat) (c : ExprW E) (b : SBlock E) (rest : SElse E)
  | els (k : Nat) (b : SBlock E)

inductive SCases (E : Type) where
  | nil
  | semi (rest : SCases E)
  | cons (what : List (CaseW E)) (b : SBlock E) (rest : SCases E)
  | default (b : SBlock E)
end

mutual
def SBlock.toks : SBlock E → List Tok
  | .braces is => .lbrace :: is.toks ++ [.rbrace]
  | .empty => [.semi]
  | .omitted => []
  | .line s => s.toks

def SItems.toks : SItems E → List Tok
  | .nil => []
  | .semi r => .semi :: r.toks
  | .cons s r => s.toks ++ r.toks

def SStmt.toks : SStmt E → List Tok
  | .simple s ended => s.toks ++ endToks ended
  | .if_ c b els => .ident (kw "if") :: .lparen :: c.toks ++ .rparen :: b.toks ++ els.toks
  | .while_ c b => .ident (kw "while") :: .lparen :: c.toks ++ .rparen :: b.toks
  | .doWhile b k c ended =>
    .ident (kw "do") :: b.toks ++ semis k ++ .ident (kw "while") :: .lparen :: c.toks ++ .rparen :: endToks ended
  | .for_ h b => .ident (kw "for") :: .lparen :: h.toks ++ .rparen :: b.toks
  | .spawn none b => .ident (kw "spawn") :: b.toks
  | .spawn (some d) b => .ident (kw "spawn") :: .lparen :: optToks d ++ .rparen :: b.toks
  | .switch e cs => .ident (kw "switch") :: .lparen :: e.toks ++ .rparen :: .lbrace :: cs.toks ++ [.rbrace]
  | .tryCatch b k none b' => .ident (kw "try") :: b.toks ++ semis k ++ .ident (kw "catch") :: b'.toks
  | .tryCatch b k (some ps) b' =>
    .ident (kw "try") :: b.toks ++ semis k ++ .ident (kw "catch") :: .lparen :: pathsToks ps ++ .rparen :: b'.toks
  | .setting n m e ended =>
    .ident (kw "set") :: .ident n :: (match m with | .assign => .assign | .in_ => .in_) :: e.toks ++ endToks ended
  | .break_ l ended => .ident (kw "break") :: l.toList.map .ident ++ endToks ended
  | .continue_ l ended => .ident (kw "continue") :: l.toList.map .ident ++ endToks ended
  | .del e ended => .ident (kw "del") :: e.toks ++ endToks ended
  | .label _ e b => e.toks ++ .colon :: b.toks

def SElse.toks : SElse E → List Tok
  | .none k => semis k
  | .elif k c b r =>
    semis k ++ .ident (kw "else") :: .ident (kw "if") :: .lparen :: c.toks ++ .rparen :: b.toks ++ r.toks
  | .els k b => semis k ++ .ident (kw "else") :: b.toks

def SCases.toks : SCases E → List Tok
  | .nil => []
  | .semi r => .semi :: r.toks
  | .cons what b r => .ident (kw "if") :: .lparen :: caseToks what ++ .rparen :: b.toks ++ r.toks
  | .default b => .ident (kw "else") :: b.toks
end

mutual
def SBlock.val : SBlock E → Block E
  | .braces is => is.val
  | .empty => []
  | .omitted => []
  | .line s => [s.val]

def SItems.val : SItems E → Block E
  | .nil => []
  | .semi r => r.val
  | .cons s r => s.val :: r.val

def SStmt.val : SStmt E → Stmt E
  | .simple s _ => .simple s.val
  | .if_ c b els => .if_ ((c.val, b.val) :: els.arms) els.last
  | .while_ c b => .while_ c.val b.val
  | .doWhile b _ c _ => .doWhile b.val c.val
  | .for_ h b => .for_ h.val b.val
  | .spawn d b => .spawn ((d.bind id).map ExprW.val) b.val
  | .switch e cs => .switch e.val cs.cases cs.dflt
  | .tryCatch b _ ps b' => .tryCatch b.val ((ps.getD []).map PathW.names) b'.val
  | .setting n m e _ => .setting n m e.val
  | .break_ l _ => .break_ l
  | .continue_ l _ => .continue_ l
  | .del e _ => .del e.val
  | .label n _ b => .label n b.val

def SElse.arms : SElse E → List (E × Block E)
  | .none _ => []
  | .elif _ c b r => (c.val, b.val) :: r.arms
  | .els _ _ => []

def SElse.last : SElse E → Option (Block E)
  | .none _ => Option.none
  | .elif _ _ _ r => r.last
  | .els _ b => some b.val

def SCases.cases : SCases E → List (List (Case E) × Block E)
  | .nil => []
  | .semi r => r.cases
  | .cons what b r => (what.map CaseW.val, b.val) :: r.cases
  | .default _ => []

def SCases.dflt : SCases E → Option (Block E)
  | .nil => none
  | .semi r => r.dflt
  | .cons _ _ r => r.dflt
  | .default b => some b.val
end

mutual
def SBlock.warns : SBlock E → List Diag
  | .braces is => is.warns
  | .empty => []
  | .omitted => []
  | .line s => s.warns

def SItems.warns : SItems E → List Diag
  | .nil => []
  | .semi r => r.warns
  | .cons s r => s.warns ++ r.warns

def SStmt.warns : SStmt E → List Diag
  | .simple s _ => s.warns
  | .if_ _ b els => b.warns ++ els.warns
  | .while_ _ b => b.warns
  | .doWhile b _ _ _ => b.warns
  | .for_ h b => h.warns ++ b.warns
  | .spawn _ b => b.warns
  | .switch _ cs => cs.warns
  | .tryCatch b _ _ b' => b.warns ++ b'.warns
  | .setting _ _ _ _ => []
  | .break_ _ _ => []
  | .continue_ _ _ => []
  | .del _ _ => []
  | .label _ _ b => b.warns

def SElse.warns : SElse E → List Diag
  | .none _ => []
  | .elif _ _ b r => b.warns ++ r.warns
  | .els _ b => b.warns

def SCases.warns : SCases E → List Diag
  | .nil => []
  | .semi r => r.warns
  | .cons what b r => (if what = [] then [.emptyCase] else []) ++ b.warns ++ r.warns
  | .default b => b.warns
end

/-- does the block consist of an `if` alone -/
def SBlock.isIf : SBlock E → Prop
  | .line (.if_ _ _ _) => True
  | _ => False

/-- how a statement that needs a `;` ends -/
def EndOk (ended : Bool) (rest : List Tok) : Prop := ended = false → AtEnd rest

mutual
def SBlock.Ok (X : ExprP E) (b : SBlock E) (rest : List Tok) : Prop :=
  match b with
  | .braces is => is.Ok X (.rbrace :: rest)
  | .empty => True
  | .omitted => AtEnd rest
  | .line s => s.Ok X rest

def SItems.Ok (X : ExprP E) (is : SItems E) (rest : List Tok) : Prop :=
  match is with
  | .nil => True
  | .semi r => r.Ok X rest
  | .cons s r => s.Ok X (r.toks ++ rest) ∧ r.Ok X rest

def SStmt.Ok (X : ExprP E) (s : SStmt E) (rest : List Tok) : Prop :=
  match s with
  | .simple s ended => s.Ok X (endToks ended ++ rest) ∧ EndOk ended rest
  | .if_ c b els => Reads X c (.rparen :: b.toks ++ els.toks ++ rest) ∧ b.Ok X (els.toks ++ rest) ∧ els.Ok X rest
  | .while_ c b => Reads X c (.rparen :: b.toks ++ rest) ∧ b.Ok X rest
  | .doWhile b k c ended =>
    b.Ok X (semis k ++ .ident (kw "while") :: .lparen :: c.toks ++ .rparen :: endToks ended ++ rest)
      ∧ Reads X c (.rparen :: endToks ended ++ rest) ∧ EndOk ended rest
  | .for_ h b => h.Ok X (b.toks ++ rest) ∧ b.Ok X rest
  | .spawn none b => (b.toks ++ rest).head? ≠ some .lparen ∧ b.Ok X rest
  | .spawn (some d) b => OptReads X d (.rparen :: b.toks ++ rest) ∧ b.Ok X rest
  | .switch e cs => Reads X e (.rparen :: .lbrace :: cs.toks ++ .rbrace :: rest) ∧ cs.Ok X (.rbrace :: rest)
  | .tryCatch b k none b' =>
    b.Ok X (semis k ++ .ident (kw "catch") :: b'.toks ++ rest) ∧ (b'.toks ++ rest).head? ≠ some .lparen ∧ b'.Ok X rest
  | .tryCatch b k (some ps) b' =>
    b.Ok X (semis k ++ .ident (kw "catch") :: .lparen :: pathsToks ps ++ .rparen :: b'.toks ++ rest)
      ∧ (∀ p ∈ ps, p.trail = false) ∧ b'.Ok X rest
  | .setting _ _ e ended => Reads X e (endToks ended ++ rest) ∧ EndOk ended rest
  | .break_ _ ended => EndOk ended rest
  | .continue_ _ ended => EndOk ended rest
  | .del e ended => Reads X e (endToks ended ++ rest) ∧ EndOk ended rest
  | .label n e b => Starts e.toks ∧ Reads X e (.colon :: b.toks ++ rest) ∧ X.ident e.val = some n ∧ b.Ok X rest

/-- without an `else` no `else` follows: it would belong to this `if` -/
def SElse.Ok (X : ExprP E) (e : SElse E) (rest : List Tok) : Prop :=
  match e with
  | .none _ => rest.head? ≠ some .semi ∧ rest.head? ≠ some (.ident (kw "else"))
  | .elif _ c b r => Reads X c (.rparen :: b.toks ++ r.toks ++ rest) ∧ b.Ok X (r.toks ++ rest) ∧ r.Ok X rest
  | .els _ b => ¬b.isIf ∧ b.Ok X rest

def SCases.Ok (X : ExprP E) (cs : SCases E) (rest : List Tok) : Prop :=
  match cs with
  | .nil => True
  | .semi r => r.Ok X rest
  | .cons what b r => CasesOk X (.rparen :: b.toks ++ r.toks ++ rest) what ∧ b.Ok X (r.toks ++ rest) ∧ r.Ok X rest
  | .default b => b.Ok X rest
end

end Verif.Stmt
