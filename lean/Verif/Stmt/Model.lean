import Verif.Decl.Model

/-!
# Model of the parser of proc bodies (`crates/dreammaker/src/parser.rs`, statements)

* The tokens, the parser of paths, of list suffixes and of input types are those of `Verif.Decl`.
* The expression parser is a parameter (`ExprP`): what it reads, and what a `for` wants to know of an expression.
* Locations, annotations and `LoopContext` (which nothing looks at) are not modelled.  Messages are kinds without text;
  those of the expression parser are left out, and so are those of a body with a fatal error.
* The statements that may also stand in the head of a `for` are `Simple`, and the heads of the seven kinds of `for`
  loops are `ForHead`; in the code they are all `Statement`.
* Recursion has fuel; `R.fuel` does not arise, see `body_parsing_ends`.
-/

namespace Verif.Stmt

open Verif.Objtree (Ident)
open Verif.Decl (Tok kw VarTy InTy Init Parsers treePath varSuffix initializer inputSpec inputType)

/-- what the statements need of expressions -/
structure ExprP (E : Type) where
  /-- `expression` (parser.rs): `none` is an error, `some none` is "there is no expression here" -/
  expr : List Tok → Option (Option (E × List Tok))
  expr_takes : ∀ ts e rest, expr ts = some (some (e, rest)) → rest.length < ts.length
  expr_stop : ∀ t rest, t ∈ [Tok.semi, .comma, .rparen, .rbracket, .rbrace] → expr (t :: rest) = some none
  /-- `as_term` is `Term::Ident` (ast.rs:998-1017) -/
  ident : E → Option Ident
  /-- `BinaryOp` with `In`, `BinaryOp` with `To`, `AssignOp` with `Assign` (ast.rs:958-994) -/
  asIn : E → Option (E × E)
  asTo : E → Option (E × E)
  asAssign : E → Option (E × E)
  /-- they are different constructors of `Expression` -/
  ident_in : ∀ e n, ident e = some n → asIn e = none
  ident_assign : ∀ e n, ident e = some n → asAssign e = none
  in_assign : ∀ e p, asIn e = some p → asAssign e = none

/-- messages -/
inductive Diag where
  | decl (d : Decl.Diag)
  /-- "var/tmp has no effect here" and the like (parser.rs:1921-1951) -/
  | tmpNoEffect | finalNoEffect | privNoEffect | protNoEffect
  /-- "'as' clause has no effect on local variables" (parser.rs:1968) -/
  | asLocalVar
  /-- "switch case cannot be empty" (parser.rs:1787) -/
  | emptyCase
deriving DecidableEq

/-- `VarStatement` (ast.rs:1563-1567) -/
structure VarS (E : Type) where
  ty : VarTy
  name : Ident
  value : Option (Init E)

/-- `Statement` (ast.rs:1502-1559): those that `simple_statement` gives -/
inductive Simple (E : Type) where
  | expr (e : E)
  | ret (e : Option E)
  | throw_ (e : E)
  | crash (e : Option E)
  | goto (l : Ident)
  | var (v : VarS E)
  | vars (vs : List (VarS E))

/-- `Case` (ast.rs:1570-1573) -/
inductive Case (E : Type) where
  | exact (e : E)
  | range (a b : E)

/-- `SettingMode` (ast.rs:453-456) -/
inductive Mode where
  | assign | in_
deriving DecidableEq

/-- the loops (ast.rs:1519-1530, 1576-1605) without their blocks -/
inductive ForHead (E : Type) where
  | infinite
  | loop (init : Option (Simple E)) (test : Option E) (inc : Option (Simple E))
  | list (ty : Option VarTy) (name : Ident) (input : Option InTy) (inList : Option E)
  | keyValue (ty : Option VarTy) (key : Ident) (keyInput : Option InTy) (value : Ident) (inList : E)
  | range (ty : Option VarTy) (name : Ident) (start : Init E) (stop : E) (step : Option E)

/-- `Statement` (ast.rs:1502-1559) -/
inductive Stmt (E : Type) where
  | simple (s : Simple E)
  | if_ (arms : List (E × List (Stmt E))) (els : Option (List (Stmt E)))
  | while_ (cond : E) (block : List (Stmt E))
  | doWhile (block : List (Stmt E)) (cond : E)
  | for_ (head : ForHead E) (block : List (Stmt E))
  | spawn (delay : Option E) (block : List (Stmt E))
  | switch (input : E) (cases : List (List (Case E) × List (Stmt E))) (default : Option (List (Stmt E)))
  | tryCatch (block : List (Stmt E)) (params : List (List Ident)) (catch_ : List (Stmt E))
  | setting (name : Ident) (mode : Mode) (value : E)
  | break_ (label : Option Ident)
  | continue_ (label : Option Ident)
  | del (e : E)
  | label (name : Ident) (block : List (Stmt E))

abbrev Block (E : Type) := List (Stmt E)

/-! ## Results -/

/-- `Status` (parser.rs:18-21): a value with the rest of the tokens and the messages, "there isn't one of those here,
nothing was read", or an error -/
inductive R (A : Type) where
  | ok (a : A) (rest : List Tok) (ds : List Diag)
  | nothing
  | err
  | fuel

variable {A B E : Type}

def R.pre (ds : List Diag) : R A → R A
  | .ok a rest ds' => .ok a rest (ds ++ ds')
  | r => r

/-- `leading!` (parser.rs:42-49) -/
def R.lead (r : R A) (k : A → List Tok → R B) : R B :=
  match r with
  | .ok a rest ds => (k a rest).pre ds
  | .nothing => .nothing
  | .err => .err
  | .fuel => .fuel

/-- `require!` (parser.rs:35-40) -/
def R.need (r : R A) (k : A → List Tok → R B) : R B :=
  match r with
  | .ok a rest ds => (k a rest).pre ds
  | .nothing => .err
  | .err => .err
  | .fuel => .fuel

/-- `?` alone: there may be none; `ts` are the tokens before -/
def R.maybe (r : R A) (ts : List Tok) (k : Option A → List Tok → R B) : R B :=
  match r with
  | .ok a rest ds => (k (some a) rest).pre ds
  | .nothing => k none ts
  | .err => .err
  | .fuel => .fuel

/-- `exact` (parser.rs:608-616) -/
def exact (t : Tok) : List Tok → R Unit
  | [] => .nothing
  | t' :: rest => if t' = t then .ok () rest [] else .nothing

/-- `exact_ident` (parser.rs:635-640) -/
def word (s : String) : List Tok → R Unit := exact (.ident (kw s))

/-- `ident` (parser.rs:618-623) -/
def ident : List Tok → R Ident
  | .ident s :: rest => .ok s rest []
  | _ => .nothing

/-- `expression` -/
def ExprP.ex (X : ExprP E) (ts : List Tok) : R E :=
  match X.expr ts with
  | none => .err
  | some none => .nothing
  | some (some (e, rest)) => .ok e rest []

/-- for the parts of declarations -/
def ExprP.decl (X : ExprP E) : Parsers E Unit := ⟨X.expr, X.expr_takes, fun _ => none⟩

/-- a part of a declaration that needs to be there -/
def part (r : Option (A × List Tok × List Decl.Diag)) : R A :=
  match r with
  | none => .err
  | some (a, rest, ds) => .ok a rest (ds.map .decl)

/-- `input_type` (parser.rs:1439-1466) -/
def inTy (ts : List Tok) : R InTy :=
  match inputType ts with
  | none => .err
  | some none => .nothing
  | some (some (t, rest, ds)) => .ok t rest (ds.map .decl)

/-- `statement_terminator` (parser.rs:1873-1888) -/
def terminator (ts : List Tok) : R Unit :=
  match Decl.terminator ts with
  | none => .nothing
  | some rest => .ok () rest []

/-- `skip_phantom_semicolons` (parser.rs:1890-1901) -/
def skipSemis : List Tok → List Tok
  | .semi :: rest => skipSemis rest
  | ts => ts

/-- `separated` without empty elements (parser.rs:2818-2846) after the opening bracket; `legal` is `comma_legal` -/
def separated (p : List Tok → R A) : Nat → Bool → List Tok → R (List A)
  | 0, _, _ => .fuel
  | f + 1, legal, ts =>
    (exact .rparen ts).maybe ts fun c ts =>
      match c with
      | some () => .ok [] ts []
      | none =>
        (exact .comma ts).maybe ts fun c ts =>
          match c with
          | some () => if legal then separated p f false ts else .err
          | none =>
            if legal then .err
            else (p ts).need fun a ts => (separated p f true ts).need fun as ts => .ok (a :: as) ts []

/-! ## Simple statements -/

/-- the messages about the flags of a local variable (parser.rs:1921-1951) -/
def flagDiags (t : VarTy) : List Diag :=
  (if t.flags.tmp then [.tmpNoEffect] else []) ++ (if t.flags.final then [.finalNoEffect] else [])
    ++ (if t.flags.priv then [.privNoEffect] else []) ++ (if t.flags.prot then [.protNoEffect] else [])

/-- the value of a local variable (parser.rs:1959-1963) -/
def varValue (X : ExprP E) (suf : List (Option E)) (ts : List Tok) : R (Option (Init E)) :=
  (exact .assign ts).maybe ts fun c ts =>
    match c with
    | some () => (X.ex ts).need fun e ts => .ok (some (.expr e)) ts []
    | none => .ok (initializer suf) ts []

/-- the `as` and `in` of a local variable (parser.rs:1964-1972) -/
def varSpec (X : ExprP E) (inFor : Bool) (ts : List Tok) : R Unit :=
  if inFor then .ok () ts []
  else
    match inputSpec X.decl ts with
    | none => .err
    | some (t, l, rest, ds) => .ok () rest (ds.map .decl ++ if t.isSome || l.isSome then [.asLocalVar] else [])

/-- one variable (parser.rs:1912-1978) -/
def varOne (X : ExprP E) (inFor : Bool) (ts : List Tok) : R (VarS E) :=
  (part ((treePath ts).map fun r => (r.2.1, r.2.2.1, r.2.2.2))).need fun path ts =>
    match path.getLast? with
    | none => .err
    | some name =>
      (part ((varSuffix X.decl ts).map fun r => (r.1, r.2, []))).need fun suf ts =>
        ((varValue X suf ts).need fun value ts =>
          (varSpec X inFor ts).need fun _ ts =>
            .ok ⟨(VarTy.ofPath path.dropLast).suffix suf, name, value⟩ ts []).pre (flagDiags (VarTy.ofPath path.dropLast))

/-- the `loop` over variables (parser.rs:1911-1982) -/
def varLoop (X : ExprP E) (inFor : Bool) : Nat → List Tok → R (List (VarS E))
  | 0, _ => .fuel
  | f + 1, ts =>
    (varOne X inFor ts).need fun v ts =>
      if inFor then .ok [v] ts []
      else
        (exact .comma ts).maybe ts fun c ts =>
          match c with
          | some () => (varLoop X inFor f ts).need fun vs ts => .ok (v :: vs) ts []
          | none => .ok [v] ts []

/-- the words that start a simple statement -/
inductive SKw where
  | var | ret | crash | throw_ | goto
deriving DecidableEq

def SKw.of (s : Ident) : Option SKw :=
  if s = kw "var" then some .var
  else if s = kw "return" then some .ret
  else if s = kw "CRASH" then some .crash
  else if s = kw "throw" then some .throw_
  else if s = kw "goto" then some .goto
  else none

/-- the first word, if it is one of those -/
def SKw.first : List Tok → Option (SKw × List Tok)
  | .ident s :: rest => (SKw.of s).map fun k => (k, rest)
  | _ => none

/-- `simple_statement` (parser.rs:1904-2015) -/
def simple (X : ExprP E) (inFor : Bool) (ts : List Tok) : R (Simple E) :=
  match SKw.first ts with
  | some (.var, r) =>
    (varLoop X inFor (r.length + 1) r).need fun vs ts =>
      match vs with
      | [v] => .ok (.var v) ts []
      | vs => .ok (.vars vs) ts []
  | some (.ret, r) => (X.ex r).maybe r fun e ts => .ok (.ret e) ts []
  | some (.crash, r) =>
    (exact .lparen r).need fun _ ts => (X.ex ts).maybe ts fun e ts => (exact .rparen ts).need fun _ ts =>
      .ok (.crash e) ts []
  | some (.throw_, r) => (X.ex r).need fun e ts => .ok (.throw_ e) ts []
  | some (.goto, r) => (ident r).need fun l ts => .ok (.goto l) ts []
  | none => (X.ex ts).lead fun e ts => .ok (.expr e) ts []

/-! ## Loops -/

/-- `for_range` (parser.rs:2020-2044) up to the `)` -/
def forRange (X : ExprP E) (ty : Option VarTy) (name : Ident) (start : Init E) (stop : E) (ts : List Tok) :
    R (ForHead E) :=
  (word "step" ts).maybe ts fun c ts =>
    match c with
    | some () =>
      (X.ex ts).need fun e ts => (exact .rparen ts).need fun _ ts => .ok (.range ty name start stop (some e)) ts []
    | none => (exact .rparen ts).need fun _ ts => .ok (.range ty name start stop none) ts []

/-- the rest of a three-pronged loop with `;` (parser.rs:1571-1584) -/
def forSemi (X : ExprP E) (init : Option (Simple E)) (ts : List Tok) : R (ForHead E) :=
  (X.ex ts).maybe ts fun test ts =>
    (exact .semi ts).maybe ts fun c ts =>
      match c with
      | some () =>
        (simple X false ts).maybe ts fun inc ts => (exact .rparen ts).need fun _ ts => .ok (.loop init test inc) ts []
      | none => (exact .rparen ts).need fun _ ts => .ok (.loop init test none) ts []

/-- the key of `for(key, value in list)` (parser.rs:1615-1625) -/
def keyOf (X : ExprP E) : Option (Simple E) → Option (Option VarTy × Ident)
  | some (.var v) =>
    match v.value with
    | none => some (some v.ty, v.name)
    | some _ => none
  | some (.expr e) => (X.ident e).map fun n => (none, n)
  | _ => none

/-- two prongs (parser.rs:1602-1656) -/
def forTwo (X : ExprP E) (init : Option (Simple E)) (keyIn : Option InTy) (test : Option E) (ts : List Tok) :
    R (ForHead E) :=
  match test.bind X.asIn with
  | some (lhs, rhs) =>
    match keyOf X init, X.ident lhs with
    | some (ty, key), some value => (exact .rparen ts).need fun _ ts => .ok (.keyValue ty key keyIn value rhs) ts []
    | _, _ => .err
  | none => (exact .rparen ts).need fun _ ts => .ok (.loop init test none) ts []

/-- the rest of a loop with `,` (parser.rs:1586-1656) -/
def forComma (X : ExprP E) (init : Option (Simple E)) (keyIn : Option InTy) (ts : List Tok) : R (ForHead E) :=
  (X.ex ts).maybe ts fun test ts =>
    (exact .comma ts).maybe ts fun c ts =>
      match c with
      | some () =>
        (simple X false ts).maybe ts fun inc ts =>
          match inc with
          | some inc => (exact .rparen ts).need fun _ ts => .ok (.loop init test (some inc)) ts []
          | none => forTwo X init keyIn test ts
      | none => forTwo X init keyIn test ts

/-- a list loop after its variable (parser.rs:1727-1752) -/
def forList (X : ExprP E) (ty : Option VarTy) (name : Ident) (ts : List Tok) : R (ForHead E) :=
  (word "as" ts).maybe ts fun c ts =>
    let rest := fun (input : Option InTy) (ts : List Tok) =>
      (exact .in_ ts).maybe ts fun c ts =>
        match c with
        | some () =>
          (X.ex ts).need fun e ts =>
            (word "to" ts).maybe ts fun c ts =>
              match c with
              | some () => (X.ex ts).need fun e' ts => forRange X ty name (.expr e) e' ts
              | none => (exact .rparen ts).need fun _ ts => .ok (.list ty name input (some e)) ts []
        | none => (exact .rparen ts).need fun _ ts => .ok (.list ty name input none) ts []
    match c with
    | some () => (inTy ts).need fun t ts => rest (some t) ts
    | none => rest none ts

/-- a loop that goes on neither with `;` nor with `,` (parser.rs:1657-1752) -/
def forOne (X : ExprP E) (init : Simple E) (ts : List Tok) : R (ForHead E) :=
  match init with
  | .var v =>
    match v.value with
    | none => forList X (some v.ty) v.name ts
    | some value =>
      (word "to" ts).need fun _ ts => (X.ex ts).need fun e ts => forRange X (some v.ty) v.name value e ts
  | .expr e =>
    match X.asAssign e with
    | some (lhs, rhs) =>
      match X.ident lhs with
      | none => .err
      | some name => (word "to" ts).need fun _ ts => (X.ex ts).need fun e ts => forRange X none name (.expr rhs) e ts
    | none =>
      match X.asIn e with
      | some (lhs, rhs) =>
        match X.ident lhs with
        | none => .err
        | some name =>
          match X.asTo rhs with
          | some (a, b) => forRange X none name (.expr a) b ts
          | none => (exact .rparen ts).need fun _ ts => .ok (.list none name none (some rhs)) ts []
      | none =>
        match X.ident e with
        | none => .err
        | some name => forList X none name ts
  | _ => .err

/-- what comes after the first part of the head of a `for` (parser.rs:1570-1758) -/
def forRest (X : ExprP E) (init : Option (Simple E)) (keyIn : Option InTy) (ts : List Tok) : R (ForHead E) :=
  (exact .semi ts).maybe ts fun c ts =>
    match c with
    | some () => forSemi X init ts
    | none =>
      (exact .comma ts).maybe ts fun c ts =>
        match c with
        | some () => forComma X init keyIn ts
        | none =>
          match init with
          | some init => forOne X init ts
          | none => (exact .rparen ts).need fun _ ts => .ok .infinite ts []

/-- the head of a `for` (parser.rs:1554-1758), from the `(` through the `)` -/
def forHead (X : ExprP E) (ts : List Tok) : R (ForHead E) :=
  (exact .lparen ts).need fun _ ts =>
    (simple X true ts).maybe ts fun init ts =>
      (word "as" ts).maybe ts fun c ts =>
        match c with
        | some () => (inTy ts).need fun t ts => forRest X init (some t) ts
        | none => forRest X init none ts

/-! ## Statements -/

/-- `(`, an expression, `)` -/
def paren (X : ExprP E) (ts : List Tok) : R E :=
  (exact .lparen ts).need fun _ ts => (X.ex ts).need fun e ts => (exact .rparen ts).need fun _ ts => .ok e ts []

/-- `case` (parser.rs:2062-2069) -/
def case (X : ExprP E) (ts : List Tok) : R (Case E) :=
  (X.ex ts).need fun a ts =>
    (word "to" ts).maybe ts fun c ts =>
      match c with
      | some () => (X.ex ts).need fun b ts => .ok (.range a b) ts []
      | none => .ok (.exact a) ts []

/-- a parameter of `catch` (parser.rs:1813-1816) -/
def catchParam (ts : List Tok) : R (List Ident) :=
  match treePath ts with
  | none => .nothing
  | some (_, path, rest, ds) => .ok path rest (ds.map .decl)

/-- the parameters of `catch` (parser.rs:1811-1820) -/
def catchParams (ts : List Tok) : R (List (List Ident)) :=
  (exact .lparen ts).maybe ts fun c ts =>
    match c with
    | some () => separated catchParam (ts.length + 1) false ts
    | none => .ok [] ts []

/-- the delay of `spawn` (parser.rs:1759-1766) -/
def delay (X : ExprP E) (ts : List Tok) : R (Option E) :=
  (exact .lparen ts).maybe ts fun c ts =>
    match c with
    | some () => (X.ex ts).maybe ts fun e ts => (exact .rparen ts).need fun _ ts => .ok e ts []
    | none => .ok none ts []

/-- the mode of `set` (parser.rs:1830-1836) -/
def setMode (ts : List Tok) : R Mode :=
  (exact .assign ts).maybe ts fun c ts =>
    match c with
    | some () => .ok .assign ts []
    | none => (exact .in_ ts).need fun _ ts => .ok .in_ ts []

/-- the list of values of a case of a `switch` (parser.rs:1778-1790) -/
def caseHead (X : ExprP E) (ts : List Tok) : R (List (Case E)) :=
  (exact .lparen ts).need fun _ ts =>
    (separated (case X) (ts.length + 1) false ts).need fun what ts =>
      .ok what ts (if what.isEmpty then [.emptyCase] else [])

/-- the words that start a statement -/
inductive Kw where
  | if_ | while_ | do_ | for_ | spawn | switch | try_ | set | break_ | continue_ | del
deriving DecidableEq

def Kw.of (s : Ident) : Option Kw :=
  if s = kw "if" then some .if_
  else if s = kw "while" then some .while_
  else if s = kw "do" then some .do_
  else if s = kw "for" then some .for_
  else if s = kw "spawn" then some .spawn
  else if s = kw "switch" then some .switch
  else if s = kw "try" then some .try_
  else if s = kw "set" then some .set
  else if s = kw "break" then some .break_
  else if s = kw "continue" then some .continue_
  else if s = kw "del" then some .del
  else none

/-- the first word, if it is one of those -/
def Kw.first : List Tok → Option (Kw × List Tok)
  | .ident s :: rest => (Kw.of s).map fun k => (k, rest)
  | _ => none

mutual
/-- `block` (parser.rs:1472-1498) -/
def block (X : ExprP E) : Nat → List Tok → R (Block E)
  | 0, _ => .fuel
  | f + 1, ts =>
    (exact .lbrace ts).maybe ts fun c ts =>
      match c with
      | some () => items X f ts
      | none =>
        (terminator ts).maybe ts fun c ts =>
          match c with
          | some () => .ok [] ts []
          | none => (stmt X f ts).need fun s ts => .ok [s] ts []

/-- the `loop` of `block` (parser.rs:1476-1485) -/
def items (X : ExprP E) : Nat → List Tok → R (Block E)
  | 0, _ => .fuel
  | f + 1, ts =>
    (exact .rbrace ts).maybe ts fun c ts =>
      match c with
      | some () => .ok [] ts []
      | none =>
        (exact .semi ts).maybe ts fun c ts =>
          match c with
          | some () => items X f ts
          | none => (stmt X f ts).need fun s ts => (items X f ts).need fun ss ts => .ok (s :: ss) ts []

/-- `statement` (parser.rs:1500-1871) -/
def stmt (X : ExprP E) : Nat → List Tok → R (Stmt E)
  | 0, _ => .fuel
  | f + 1, ts =>
    match Kw.first ts with
    | some (.if_, r) =>
      (paren X r).need fun c ts => (block X f ts).need fun b ts => (elses X f ts).need fun es ts =>
        .ok (.if_ ((c, b) :: es.1) es.2) ts []
    | some (.while_, r) => (paren X r).need fun c ts => (block X f ts).need fun b ts => .ok (.while_ c b) ts []
    | some (.do_, r) =>
      (block X f r).need fun b ts => (word "while" (skipSemis ts)).need fun _ ts => (paren X ts).need fun c ts =>
        (terminator ts).need fun _ ts => .ok (.doWhile b c) ts []
    | some (.for_, r) => (forHead X r).need fun h ts => (block X f ts).need fun b ts => .ok (.for_ h b) ts []
    | some (.spawn, r) => (delay X r).need fun d ts => (block X f ts).need fun b ts => .ok (.spawn d b) ts []
    | some (.switch, r) =>
      (paren X r).need fun e ts => (exact .lbrace ts).need fun _ ts => (cases X f ts).need fun cs ts =>
        (exact .rbrace ts).need fun _ ts => .ok (.switch e cs.1 cs.2) ts []
    | some (.try_, r) =>
      (block X f r).need fun b ts => (word "catch" (skipSemis ts)).need fun _ ts =>
        (catchParams ts).need fun ps ts => (block X f ts).need fun b' ts => .ok (.tryCatch b ps b') ts []
    | some (.set, r) =>
      (ident r).need fun n ts => (setMode ts).need fun m ts => (X.ex ts).need fun e ts =>
        (terminator ts).need fun _ ts => .ok (.setting n m e) ts []
    | some (.break_, r) => (ident r).maybe r fun l ts => (terminator ts).need fun _ ts => .ok (.break_ l) ts []
    | some (.continue_, r) => (ident r).maybe r fun l ts => (terminator ts).need fun _ ts => .ok (.continue_ l) ts []
    | some (.del, r) => (X.ex r).need fun e ts => (terminator ts).need fun _ ts => .ok (.del e) ts []
    | none =>
      (simple X false ts).lead fun s ts =>
        let plain := (terminator ts).need fun _ ts => .ok (.simple s) ts []
        match s with
        | .expr e =>
          match X.ident e with
          | some n =>
            (exact .colon ts).maybe ts fun c ts =>
              match c with
              | some () => (block X f ts).need fun b ts => .ok (.label n b) ts []
              | none => plain
          | none => plain
        | _ => plain

/-- what comes after an arm of an `if` (parser.rs:1517-1531) -/
def elses (X : ExprP E) : Nat → List Tok → R (List (E × Block E) × Option (Block E))
  | 0, _ => .fuel
  | f + 1, ts =>
    (word "else" (skipSemis ts)).maybe (skipSemis ts) fun c ts =>
      match c with
      | none => .ok ([], none) ts []
      | some () =>
        (word "if" ts).maybe ts fun c ts =>
          match c with
          | some () =>
            (paren X ts).need fun c ts => (block X f ts).need fun b ts => (elses X f ts).need fun es ts =>
              .ok ((c, b) :: es.1, es.2) ts []
          | none => (block X f ts).need fun b ts => .ok ([], some b) ts []

/-- the `loop` over the cases of a `switch` (parser.rs:1776-1800) -/
def cases (X : ExprP E) : Nat → List Tok → R (List (List (Case E) × Block E) × Option (Block E))
  | 0, _ => .fuel
  | f + 1, ts =>
    (word "if" ts).maybe ts fun c ts =>
      match c with
      | some () =>
        (caseHead X ts).need fun what ts => (block X f ts).need fun b ts => (cases X f ts).need fun cs ts =>
          .ok ((what, b) :: cs.1, cs.2) ts []
      | none =>
        (word "else" ts).maybe ts fun c ts =>
          match c with
          | some () => (block X f ts).need fun b ts => .ok ([], some b) ts []
          | none =>
            (exact .semi ts).maybe ts fun c ts =>
              match c with
              | some () => cases X f ts
              | none => .ok ([], none) ts []
end

/-- the body of a proc (parser.rs:1239-1264): tokens after the block are not looked at -/
def body (X : ExprP E) (ts : List Tok) : R (Block E) := block X (2 * ts.length + 2) ts

/-- the parsers of `Verif.Decl` with this parser of bodies -/
def ExprP.parsers (X : ExprP E) : Parsers E (Block E × List Diag) where
  expr := X.expr
  expr_takes := X.expr_takes
  block ts :=
    match body X ts with
    | .ok b _ ds => some (b, ds)
    | _ => none

end Verif.Stmt
