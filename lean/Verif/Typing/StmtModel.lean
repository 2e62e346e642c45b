import Verif.Typing.Model
import Verif.Flow.Model

/-!
# Model of DreamChecker's walk over a proc body

`crates/dreamchecker/src/lib.rs`, `AnalyzeProc::run`, `visit_block`, `visit_statement` and `visit_var` (lines 1435-2184):
which expressions are looked at, with which local variables.  The messages about control flow are in `Verif.Flow`, the one
about `switch(rand())` in `Verif.Check`; what they need of conditions and bounds is carried along as annotations.
-/

namespace Verif.Typing

open Verif.Flow (Ctl Step)

/-- A condition: its place, the expression, what `Expression::is_truthy` says (crates/dreammaker/src/ast.rs:1050-1090, see
C55) and whether it is a static term or a constant comparison (`is_const_eval` and `is_static`, ast.rs:1019-1048,
1211-1216). -/
structure Cond where
  loc : Loc
  e : Expr
  truth : Option Bool
  fixed : Bool

/-- `VarStatement` (ast.rs:1569-1574). -/
structure VarDef where
  path : List Ident
  name : Ident
  value : Option Expr

/-- `Case` (ast.rs:1618-1622). -/
inductive Case
  | exact (e : Expr)
  | range (a b : Expr)

mutual

/-- `Statement` (ast.rs:1502-1567).  `Var` and `Vars` are one; of variable types only the path is kept.  The integer
literals and the kind of step of a range loop are repeated for `Term::valid_for_range` (see `Verif.Flow`). -/
inductive Stmt
  | expr (e : Expr)
  | ret (e : Option Expr)
  | crash (e : Option Expr)
  | throw (e : Expr)
  | while (c : Expr) (b : Block)
  | doWhile (b : Block) (c : Cond)
  | ifs (arms : Arms)
  | forever (b : Block)
  | for (init : Head) (test : Option Cond) (inc : Head) (b : Block)
  | forIn (ty : Option (List Ident)) (n : Ident) (list : Option Expr) (b : Block)
  | forTo (ty : Option (List Ident)) (n : Ident) (start stop : Expr) (step : Option Expr)
      (lo hi : Option Int) (kind : Step) (b : Block)
  | forPairs (ty : Option (List Ident)) (k v : Ident) (list : Option Expr) (b : Block)
  | vars (ds : List VarDef)
  | setting (n : Ident) (assigns : Bool) (value : Expr)
  | spawn (delay : Option Expr) (b : Block)
  | switch (input : Cond) (cases : Cases)
  | tryCatch (b : Block) (params : List (List Ident)) (handler : Block)
  | cont (label : Option Ident)
  | brk (label : Option Ident)
  | goto (label : Ident)
  | label (n : Ident) (b : Block)
  | del (e : Expr)

/-- Statements one after the other, each with its place. -/
inductive Block
  | nil
  | cons (l : Loc) (s : Stmt) (b : Block)

/-- An optional statement in the head of a `for`. -/
inductive Head
  | none
  | some (s : Stmt)

/-- The arms of an `if`. -/
inductive Arms
  | noElse
  | els (b : Block)
  | cons (c : Cond) (b : Block) (rest : Arms)

/-- The cases of a `switch`, each with its place. -/
inductive Cases
  | noDefault
  | dflt (b : Block)
  | cons (l : Loc) (ks : List Case) (b : Block) (rest : Cases)

end

/-- The same as a list. -/
def Block.toList : Block → List (Loc × Stmt)
  | .nil => []
  | .cons l s b => (l, s) :: b.toList

/-- What the walk itself reports; control flow messages are left out. -/
inductive SMsg
  | expr (e : Effect)
  /-- "call to pure proc discards return value", lib.rs:1649 -/
  | pureDiscarded (n : Ident)
  /-- "purity breaking << on expression", lib.rs:1671 -/
  | impureShift
  /-- "iterating over a /datum which might not be an /atom", lib.rs:1856, 2097 -/
  | iteratesDatum
  /-- "iterating over a … which cannot be iterated", lib.rs:1864, 2105 -/
  | iteratesType (i : Nat)
  /-- lib.rs:1877, 2118 -/
  | iteratesProc
  /-- "control flow condition is …", lib.rs:1615-1628 -/
  | fixedCondition
  /-- `waitfor_procs.insert`, lib.rs:1945 -/
  | waitfor
  /-- "Elements in a switch-case branch separated by ||", lib.rs:1978 -/
  | orInCase
  /-- "Expected 0 or 1 catch parameters", lib.rs:2022 -/
  | catchParams (k : Nat)
  deriving DecidableEq

/-- A report of the walk and its place. -/
abbrev SEv := Loc × SMsg

/-- What the walk needs beside `Ctx`: whether a proc is subject to `must_be_pure` (lib.rs:1642-1645, whatever its value). -/
structure Walk extends Ctx where
  pure : Proc → Bool

/-- Local variables. -/
abbrev Env := Ident → Option An

/-- `HashMap::insert` -/
def Env.set (v : Env) (n : Ident) (a : An) : Env := fun m => if m = n then some a else v m

/-- The context in which an expression is visited: `local_vars` and `inside_newcontext`. -/
def Walk.ctx (w : Walk) (v : Env) (n : Nat) : Ctx := { w.toCtx with locals := v, newContext := decide (0 < n) }

/-- `visit_expression`. -/
def Walk.look (w : Walk) (v : Env) (n : Nat) (l : Loc) (h : Option Nat) (e : Expr) : An × List SEv :=
  let r := visitExpr (w.ctx v n) l h e
  (r.1, r.2.map fun x => (x.1, .expr x.2))

/-- The same for an expression that may be missing. -/
def Walk.lookOpt (w : Walk) (v : Env) (n : Nat) (l : Loc) : Option Expr → List SEv
  | none => []
  | some e => (w.look v n l none e).2

/-- `visit_var` (lib.rs:2163-2184): the local variables after it, and the reports. -/
def Walk.declare (w : Walk) (v : Env) (n : Nat) (l : Loc) (d : VarDef) : Env × List SEv :=
  let r := w.typed l d.path
  let x : An × List SEv := match d.value with
    | some e => w.look v n l (r.1.st.basic w.tree) e
    | none => ({ value := some .null }, [])
  (v.set d.name { x.1 with st := r.1.st }, (r.2.map fun x => (x.1, .expr x.2)) ++ x.2)

/-- Several (lib.rs:1928-1932). -/
def Walk.declares (w : Walk) (v : Env) (n : Nat) (l : Loc) : List VarDef → Env × List SEv
  | [] => (v, [])
  | d :: ds =>
    let r := w.declare v n l d
    let r' := w.declares r.1 n l ds
    (r'.1, r.2 ++ r'.2)

/-- `visit_control_condition` (lib.rs:1615-1629). -/
def conditionCheck (l : Loc) (c : Cond) : List SEv := if c.fixed then [(l, .fixedCondition)] else []

/-- The call of a pure proc as a statement (lib.rs:1637-1660). -/
def Walk.pureCheck (w : Walk) (l : Loc) : Expr → List SEv
  | .base _ (.call n _) fs =>
    if fs.toList.any fun f => match f.2 with | .call _ _ _ => true | _ => false then []
    else match w.tree.getProc w.ty n with
      | some p => if w.pure p then [(l, .pureDiscarded n)] else []
      | none => []
  | _ => []

/-- `lhs << rhs` as a statement: its left side is visited for this check (lib.rs:1661-1676). -/
def Walk.shiftCheck (w : Walk) (v : Env) (n : Nat) (l : Loc) : Expr → List SEv
  | .binary .lshift lhs _ =>
    let r := w.look v n l none lhs
    r.2 ++ (if r.1.impure then [(l, .impureShift)] else [])
  | _ => []

/-- The check of what is iterated over (lib.rs:1837-1884, 2078-2125). -/
def Walk.iterCheck (w : Walk) (l : Loc) : STy → List SEv
  | .none => []
  | .list _ => []
  | .type i =>
    if i != w.tree.expect "world" && i != w.tree.expect "list" && i != w.tree.expect "alist" then
      if w.tree.isSubtype i (w.tree.expect "atom") then []
      else if w.tree.isSubtype (w.tree.expect "atom") i then [(l, .iteratesDatum)]
      else [(l, .iteratesType i)]
    else []
  | .proc => [(l, .iteratesProc)]

/-- The list of a `for … in` (lib.rs:1835-1885). -/
def Walk.iterate (w : Walk) (v : Env) (n : Nat) (l : Loc) : Option Expr → List SEv
  | none => []
  | some e => let r := w.look v n l none e; r.2 ++ w.iterCheck l r.1.st

/-- The two spellings of false a setting is compared with (lib.rs:1937-1943): the term `0` and the word `FALSE`. -/
def offTerm : Option Term → Bool
  | some (.int k) => k == 0
  | some (.ident i) => i == "FALSE"
  | _ => false

/-- `set waitfor = FALSE` (lib.rs:1933-1948). -/
def settingCheck (l : Loc) (n : Ident) (assigns : Bool) (e : Expr) : List SEv :=
  if assigns && n == "waitfor" && offTerm e.asTerm then [(l, .waitfor)] else []

/-- The conditions of a case (lib.rs:1972-2004). -/
def Walk.caseCheck (w : Walk) (v : Env) (n : Nat) (l : Loc) (ks : List Case) : List SEv :=
  (match ks with
    | [.exact (.binary .or _ _)] => [(l, .orInCase)]
    | _ => []) ++
  ks.flatMap fun
    | .exact e => (w.look v n l none e).2
    | .range a b => (w.look v n l none a).2 ++ (w.look v n l none b).2

/-- The variable of a `catch` (lib.rs:2029-2042). -/
def caughtVar (path : List Ident) : Option VarDef :=
  match path.reverse with
  | [] => none
  | n :: rest =>
    match rest.reverse with
    | "var" :: ty => some ⟨ty, n, none⟩
    | ty => some ⟨ty, n, none⟩

/-- The control flow of an optional loop variable declaration (lib.rs:1886-1888, 1904-1906, 2128-2130). -/
def Walk.loopVar (w : Walk) (v : Env) (n : Nat) (l : Loc) (ty : Option (List Ident)) (name : Ident) (start : Option Expr) :
    Env × List SEv :=
  match ty with
  | some path => w.declare v n l ⟨path, name, start⟩
  | none => (v, [])

/-- What visiting a statement gives: how control leaves it, the local variables after it, and the reports. -/
abbrev Walked := Ctl × Env × List SEv

/-- A statement of which only the control flow of its block matters after it. -/
def Walked.leave (r : Walked) (f : Ctl → Ctl) (v : Env) (pre : List SEv) : Walked := (f r.1, v, pre ++ r.2.2)

mutual

/-- `visit_statement` (lib.rs:1631-2148). -/
def visitStmt (w : Walk) (v : Env) (n : Nat) (l : Loc) : Stmt → Walked
  | .expr e => (Ctl.allfalse, v, w.pureCheck l e ++ w.shiftCheck v n l e ++ (w.look v n l none e).2)
  | .ret (some e) => let r := w.look v n l none e; (⟨true, false, false, false⟩, v.set "." r.1, r.2)
  | .ret none => (⟨true, false, false, false⟩, v, [])
  | .crash e => (⟨true, false, false, false⟩, v, w.lookOpt v n l e)
  | .throw e => (Ctl.allfalse, v, (w.look v n l none e).2)
  | .while c b => (visitBlock w v n Ctl.allfalse b).leave Ctl.endLoop v (w.look v n l none c).2
  | .doWhile b c =>
    let r := visitBlock w v n Ctl.allfalse b
    if r.1.terminatesLoop then (r.1, v, r.2.2)
    else (r.1.endLoop, v, r.2.2 ++ (w.look r.2.1 n c.loc none c.e).2)
  | .ifs arms => let r := visitArms w v n Ctl.alltrue arms; (r.1, v, r.2)
  | .forever b => (visitBlock w v n Ctl.allfalse b).leave Ctl.endLoop v []
  | .for init test inc b =>
    let i := visitHead w v n l init
    let t : List SEv := match test with
      | none => []
      | some c => conditionCheck l c ++ (w.look i.1 n l none c.e).2
    let k := visitHead w i.1 n l inc
    (visitBlock w k.1 n Ctl.allfalse b).leave Ctl.endLoop v (i.2 ++ t ++ k.2)
  | .forIn ty name list b =>
    let x := w.loopVar v n l ty name none
    (visitBlock w x.1 n Ctl.allfalse b).leave Ctl.endLoop v (w.iterate v n l list ++ x.2)
  | .forTo ty name start stop step lo hi kind b =>
    let x := w.loopVar v n l ty name (some start)
    let r := visitBlock w x.1 n Ctl.allfalse b
    let f := match Flow.validForRange lo hi kind with
      | some true => id
      | _ => Ctl.endLoop
    r.leave f v ((w.look v n l none stop).2 ++ w.lookOpt v n l step ++ x.2)
  | .forPairs ty k val list b =>
    let x := w.loopVar v n l ty k none
    let y := w.declare x.1 n l ⟨[], val, none⟩
    (visitBlock w y.1 n Ctl.allfalse b).leave Ctl.endLoop v (w.iterate v n l list ++ x.2 ++ y.2)
  | .vars ds => let r := w.declares v n l ds; (Ctl.allfalse, r.1, r.2)
  | .setting name assigns e => (Ctl.allfalse, v, settingCheck l name assigns e)
  | .spawn delay b =>
    let n' := (n + 1) % 4294967296
    (visitBlock w v n' Ctl.allfalse b).leave (fun _ => Ctl.allfalse) v (w.lookOpt v n' l delay)
  | .switch c cases =>
    let r := visitCases w v n Ctl.alltrue cases
    (r.1, v, conditionCheck l c ++ (w.look v n l none c.e).2 ++ r.2)
  | .tryCatch b params handler =>
    let r := visitBlock w v n Ctl.allfalse b
    let m : List SEv := if params.length > 1 then [(l, .catchParams params.length)] else []
    let x := w.declares v n l (params.filterMap caughtVar)
    (visitBlock w x.1 n Ctl.allfalse handler).leave (fun _ => Ctl.allfalse) v (r.2.2 ++ m ++ x.2)
  | .cont _ => (⟨false, true, false, true⟩, v, [])
  | .brk _ => (⟨false, false, true, true⟩, v, [])
  | .goto _ => (Ctl.allfalse, v, [])
  | .label _ b => (visitBlock w v n Ctl.allfalse b).leave (fun _ => Ctl.allfalse) v []
  | .del e => (Ctl.allfalse, v, (w.look v n l none e).2)

/-- `visit_block` (lib.rs:1565-1597). -/
def visitBlock (w : Walk) (v : Env) (n : Nat) (term : Ctl) : Block → Walked
  | .nil => (term, v, [])
  | .cons l s rest =>
    if term.terminates then (term, v, [])
    else
      let r := visitStmt w v n l s
      let r' := visitBlock w r.2.1 n (term.merge r.1) rest
      (r'.1, r'.2.1, r.2.2 ++ r'.2.2)

/-- A statement in the head of a `for` (lib.rs:1812-1824). -/
def visitHead (w : Walk) (v : Env) (n : Nat) (l : Loc) : Head → Env × List SEv
  | .none => (v, [])
  | .some s => let r := visitStmt w v n l s; (r.2.1, r.2.2)

/-- The arms of an `if` (lib.rs:1748-1798). -/
def visitArms (w : Walk) (v : Env) (n : Nat) (all : Ctl) : Arms → Ctl × List SEv
  | .noElse => (all.noElse, [])
  | .els b =>
    let r := visitBlock w v n Ctl.allfalse b
    ((all.mergeFalse r.1).finalize, r.2.2)
  | .cons c b rest =>
    let r := visitBlock w v n Ctl.allfalse b
    let r' := visitArms w v n (Flow.afterArm c.truth all r.1) rest
    (r'.1, conditionCheck c.loc c ++ (w.look v n c.loc none c.e).2 ++ r.2.2 ++ r'.2)

/-- The cases of a `switch` (lib.rs:1968-2013). -/
def visitCases (w : Walk) (v : Env) (n : Nat) (all : Ctl) : Cases → Ctl × List SEv
  | .noDefault => (all.noElse, [])
  | .dflt b =>
    let r := visitBlock w v n Ctl.allfalse b
    ((all.mergeFalse r.1).finalize, r.2.2)
  | .cons l ks b rest =>
    let r := visitBlock w v n Ctl.allfalse b
    let r' := visitCases w v n (all.mergeFalse r.1) rest
    (r'.1, w.caseCheck v n l ks ++ r.2.2 ++ r'.2)

end

/-- A parameter: its place, name and type path. -/
structure Param where
  loc : Loc
  name : Ident
  path : List Ident

/-- The local variables at the beginning, before the parameters (lib.rs:1436-1467). -/
def Walk.start (w : Walk) : Env :=
  let v : Env := fun _ => none
  let v := v.set "." {}
  let v := v.set "args" { st := .type (w.tree.expect "list"), impure := true }
  let v := v.set "usr" { st := .type (w.tree.expect "mob") }
  let v := v.set "callee" { st := .type (w.tree.expect "callee") }
  let v := v.set "caller" { st := .type (w.tree.expect "callee") }
  let v := if w.ty = 0 then v else v.set "src" { st := .type w.ty }
  v.set "global" { st := .type 0, impure := true }

/-- The parameters (lib.rs:1469-1482). -/
def Walk.params (w : Walk) (v : Env) : List Param → Env × List SEv
  | [] => (v, [])
  | p :: ps =>
    let r := w.typed p.loc p.path
    let r' := w.params (v.set p.name { r.1 with impure := true }) ps
    (r'.1, (r.2.map fun x => (x.1, .expr x.2)) ++ r'.2)

/-- `run` up to the end of the body (lib.rs:1435-1484). -/
def Walk.body (w : Walk) (ps : List Param) (b : Block) : List SEv :=
  let r := w.params w.start ps
  r.2 ++ (visitBlock w r.1 0 Ctl.allfalse b).2.2

/-- The directives read at the end of `run`. `must_not_call_parent.get` is for the proc itself; the others are
`get_self_or_parent` and name the proc whose flag is true (see C58). -/
structure Rules where
  notOverride : Proc → Option Proc
  notCallParent : Proc → Option Bool
  callParent : Proc → Option Proc
  redefinable : Proc → Bool

/-- What `run` says about the proc as an override (lib.rs:1488-1561). -/
inductive PMsg
  | overridesPrivate (p : Proc)
  | overridesFinal (p : Proc)
  | callsParent (p : Proc)
  | noParentCall (p : Proc)
  | redefines
  deriving DecidableEq

/-- The end of `run` (lib.rs:1488-1561); `calls` is `calls_parent`. -/
def Walk.overrideCheck (w : Walk) (r : Rules) (calls : Bool) : List PMsg :=
  match w.tree.parentProc w.proc with
  | none => []
  | some parent =>
    (match w.privateBy w.proc with
      | some p => if p ≠ w.proc then [.overridesPrivate p] else []
      | none => []) ++
    (match r.notOverride w.proc with
      | some p => if p ≠ w.proc then [.overridesFinal p] else []
      | none => []) ++
    (if calls then
      (if r.notCallParent w.proc ≠ some false ∧ r.notCallParent parent = some true then [.callsParent parent] else [])
    else match r.callParent w.proc with
      | some p => [.noParentCall p]
      | none => []) ++
    (if !(w.tree.info parent).builtin ∧ w.proc.ty = parent.ty ∧ !r.redefinable w.proc then [.redefines] else [])

/-- Whether an effect is a call of the parent (lib.rs:2516). -/
def callsParentEv : SEv → Bool
  | (_, .expr .callsParent) => true
  | _ => false

/-- `run` (lib.rs:1435-1562). -/
def Walk.run (w : Walk) (r : Rules) (ps : List Param) (b : Block) : List SEv × List PMsg :=
  let evs := w.body ps b
  (evs, w.overrideCheck r (evs.any callsParentEv))

end Verif.Typing
