import Verif.Flow.Spec

/-!
# Model of dreamchecker's control-flow checks

`ControlFlow`, `AnalyzeProc::visit_block` and the control-flow part of
`visit_statement` of crates/dreamchecker/src/lib.rs.  What the same functions find out
about expressions (types, calls, purity) is not in this model.
-/

namespace Verif.Flow

/-- Models `ControlFlow`, crates/dreamchecker/src/lib.rs:1304-1310. -/
structure Ctl where
  returns : Bool
  continues : Bool
  breaks : Bool
  fuzzy : Bool
  deriving DecidableEq

/-- `ControlFlow::alltrue`, lib.rs:1313-1320 -/
def Ctl.alltrue : Ctl := ⟨true, true, true, false⟩

/-- `ControlFlow::allfalse`, lib.rs:1322-1329 -/
def Ctl.allfalse : Ctl := ⟨false, false, false, false⟩

/-- `ControlFlow::terminates`, lib.rs:1331-1333 -/
def Ctl.terminates (f : Ctl) : Bool := !f.fuzzy && (f.returns || f.continues || f.breaks)

/-- `ControlFlow::terminates_loop`, lib.rs:1335-1337 -/
def Ctl.terminatesLoop (f : Ctl) : Bool := !f.fuzzy && (f.returns || f.breaks)

/-- `ControlFlow::no_else`, lib.rs:1339-1343 -/
def Ctl.noElse (f : Ctl) : Ctl :=
  { f with
    returns := false
    continues := false
    breaks := false }

/-- `ControlFlow::merge`, lib.rs:1345-1361: the five `if`s in their order. -/
def Ctl.merge (f other : Ctl) : Ctl :=
  let f := if !f.fuzzy && other.returns then { f with returns := true } else f
  let f := if other.fuzzy then { f with returns := false } else f
  let f := if other.continues then { f with continues := true } else f
  let f := if other.breaks then { f with breaks := true } else f
  if other.fuzzy then { f with fuzzy := true } else f

/-- `ControlFlow::merge_false`, lib.rs:1363-1376 -/
def Ctl.mergeFalse (f other : Ctl) : Ctl :=
  let f := if !other.returns then { f with returns := false } else f
  let f := if !other.continues then { f with continues := false } else f
  let f := if !other.breaks then { f with breaks := false } else f
  if other.fuzzy then { f with fuzzy := true } else f

/-- `ControlFlow::finalize`, lib.rs:1378-1382 -/
def Ctl.finalize (f : Ctl) : Ctl :=
  if f.returns || f.breaks || f.continues then { f with fuzzy := false } else f

/-- `ControlFlow::end_loop`, lib.rs:1384-1389 -/
def Ctl.endLoop (_ : Ctl) : Ctl := ⟨false, false, false, false⟩

/-- `Term::valid_for_range`, crates/dreammaker/src/ast.rs:1251-1271, with the
`as_term` of the caller (lib.rs:1909-1911): a bound that is not an integer literal makes
it `None`. -/
def validForRange : Option Int → Option Int → Step → Option Bool
  | some i, some o, step =>
    if i = 0 ∧ o = 0 then some false
    else match step with
      | .int _ => some true
      | .expr => some true
      | .none | .term => some (decide (i ≤ o))
  | _, _, _ => none

/-- The messages registered by the functions modelled. -/
inductive Kind
  /-- "possible unreachable code here" -/
  | after
  /-- "unreachable if block, preceeding if/elseif condition(s) are always true" -/
  | deadArm
  /-- "unreachable else block, preceeding if/elseif condition(s) are always true" -/
  | deadElse
  /-- "do while terminates without ever reaching condition" -/
  | doWhile
  /-- "for range loop body is never reached due to invalid range" -/
  | emptyRange
  /-- "set statement not at the top of the proc" -/
  | lateSetting
  /-- "returning a value in a spawn has no effect" -/
  | spawnReturn
  /-- "if condition is always true/false" -/
  | ifIs (b : Bool)
  /-- "loop condition is always true/false" -/
  | loopIs (b : Bool)
  deriving DecidableEq

/-- A registered message.  `region` is not in the program: it is the code the message
says is not reached, spelled out: the rest of the block, the arm with its condition, the
`else` block, the condition of the do-while, the body of the loop. -/
structure Report where
  loc : Loc
  kind : Kind
  region : List Loc
  deriving DecidableEq

/-- `loop_condition_check`, lib.rs:1599-1613 -/
def loopCondition (loc : Loc) : Option Bool → List Report
  | some b => [⟨loc, .loopIs b, []⟩]
  | none => []

/-- "returning a value in a spawn has no effect", lib.rs:1683-1687. -/
def returnCheck (ctx : Nat) (loc : Loc) (value : Bool) : List Report :=
  if value && decide (0 < ctx) then [⟨loc, .spawnReturn, []⟩] else []

/-- `visit_statement` for the parts of the head of a `for`, lib.rs:1812-1824; the
`ControlFlow` it returns is not used there. -/
def visitPart (ctx : Nat) (loc : Loc) : Simple → List Report
  | .ret value => returnCheck ctx loc value
  | .expr | .crash | .throw | .goto _ => []

/-- The message about a `set` statement, lib.rs:1580-1587. -/
def checkSetting (allowed : Bool) (loc : Loc) : Stmt → List Report
  | .setting own => if !allowed && own then [⟨loc, .lateSetting, []⟩] else []
  | _ => []

/-- `setting_allowed` after a statement, lib.rs:1580-1592. -/
def settingAllowed (allowed : Bool) : Stmt → Bool
  | .setting _ => allowed
  | _ => false

/-- "unreachable if block", lib.rs:1754-1758. -/
def deadArm (always : Bool) (c : Loc) (body : Block) : List Report :=
  if always then [⟨c, .deadArm, c :: body.locs⟩] else []

/-- "unreachable else block", lib.rs:1782-1788: at the first statement of the block, if
there is one. -/
def deadElse (always : Bool) : Block → List Report
  | .cons loc s rest =>
    if always then [⟨loc, .deadElse, loc :: (s.locs ++ rest.locs)⟩] else []
  | .nil => []

/-- "if condition is always …", lib.rs:1766-1778. -/
def ifCondition (c : Loc) : Option Bool → List Report
  | some b => [⟨c, .ifIs b, []⟩]
  | none => []

/-- `allterm` after an arm that ended in `state`, lib.rs:1766-1780. -/
def afterArm (truth : Option Bool) (all state : Ctl) : Ctl :=
  match truth with
  | some true => all.mergeFalse state
  | some false => all
  | none => all.mergeFalse state

mutual
/-- `visit_statement`, lib.rs:1631-2148, with `inside_newcontext` (a `u32` with
wrapping arithmetic, lib.rs:1950-1958) as `ctx`.  `throw`, `goto`, `spawn`, `try` and
labels fall through to `ControlFlow::allfalse()` at 2147. -/
def visitStmt (ctx : Nat) (loc : Loc) : Stmt → Ctl × List Report
  -- 1636-1680, 1927-1949, 2066-2068
  | .simple => (Ctl.allfalse, [])
  | .setting _ => (Ctl.allfalse, [])
  -- 1681-1704
  | .ret value =>
    (⟨true, false, false, false⟩, returnCheck ctx loc value)
  -- 1705-1715
  | .crash => (⟨true, false, false, false⟩, [])
  -- 1716-1718
  | .throw => (Ctl.allfalse, [])
  -- `while` 1719-1726, `for()` 1799-1804, `for in` 1827-1890, `for k, v` 2069-2146
  | .loop body =>
    let r := visitBlock ctx false Ctl.allfalse body
    (r.1.endLoop, r.2)
  -- 1727-1747
  | .doWhile body c =>
    let r := visitBlock ctx false Ctl.allfalse body
    if r.1.terminatesLoop then (r.1, r.2 ++ [⟨loc, .doWhile, [c]⟩])
    else (r.1.endLoop, r.2)
  -- 1748-1798
  | .ifs arms => visitArms ctx Ctl.alltrue false arms
  -- 1805-1826; the test is looked at between `init` and `inc`
  | .forLoop init test inc body =>
    let r := visitBlock ctx false Ctl.allfalse body
    (r.1.endLoop, visitPart ctx loc init ++ (loopCondition loc test ++ (visitPart ctx loc inc ++ r.2)))
  -- 1891-1926
  | .range i o step body =>
    let r := visitBlock ctx false Ctl.allfalse body
    match validForRange i o step with
    | some false => (r.1.endLoop, r.2 ++ [⟨loc, .emptyRange, body.locs⟩])
    | some true => r
    | none => (r.1.endLoop, r.2)
  -- 1950-1958
  | .spawn body =>
    let r := visitBlock ((ctx + 1) % 4294967296) false Ctl.allfalse body
    (Ctl.allfalse, r.2)
  -- 1959-2013
  | .switch cases => visitCases ctx Ctl.alltrue cases
  -- 2014-2045
  | .tryCatch body handler =>
    let r1 := visitBlock ctx false Ctl.allfalse body
    let r2 := visitBlock ctx false Ctl.allfalse handler
    (Ctl.allfalse, r1.2 ++ r2.2)
  -- 2046-2053
  | .cont _ => (⟨false, true, false, true⟩, [])
  -- 2054-2061
  | .brk _ => (⟨false, false, true, true⟩, [])
  | .goto _ => (Ctl.allfalse, [])
  -- 2063-2065
  | .label _ body =>
    let r := visitBlock ctx false Ctl.allfalse body
    (Ctl.allfalse, r.2)
/-- `visit_block`, lib.rs:1565-1597: the loop, with `setting_allowed` and `term` as
`allowed` and `term`. -/
def visitBlock (ctx : Nat) (allowed : Bool) (term : Ctl) : Block → Ctl × List Report
  | .nil => (term, [])
  | .cons loc s rest =>
    if term.terminates then
      (term, [⟨loc, .after, loc :: (s.locs ++ rest.locs)⟩])
    else
      let r := visitStmt ctx loc s
      let r' := visitBlock ctx (settingAllowed allowed s) (term.merge r.1) rest
      (r'.1, checkSetting allowed loc s ++ (r.2 ++ r'.2))
/-- The arms of `if`, lib.rs:1749-1797: `all` is `allterm`, `always` is `alwaystrue`. -/
def visitArms (ctx : Nat) (all : Ctl) (always : Bool) : Arms → Ctl × List Report
  | .noElse => (all.noElse, [])
  | .els b =>
    let r := visitBlock ctx false Ctl.allfalse b
    ((all.mergeFalse r.1).finalize, deadElse always b ++ r.2)
  | .cons c truth body rest =>
    let r := visitBlock ctx false Ctl.allfalse body
    let r' := visitArms ctx (afterArm truth all r.1) (always || truth == some true) rest
    (r'.1, deadArm always c body ++ (r.2 ++ (ifCondition c truth ++ r'.2)))
/-- The cases of `switch`, lib.rs:1970-2012. -/
def visitCases (ctx : Nat) (all : Ctl) : Cases → Ctl × List Report
  | .noDefault => (all.noElse, [])
  | .dflt b =>
    let r := visitBlock ctx false Ctl.allfalse b
    ((all.mergeFalse r.1).finalize, r.2)
  | .cons body rest =>
    let r := visitBlock ctx false Ctl.allfalse body
    let r' := visitCases ctx (all.mergeFalse r.1) rest
    (r'.1, r.2 ++ r'.2)
end

/-- What is reported about a proc body: the call at lib.rs:1484. -/
def check (b : Block) : List Report := (visitBlock 0 true Ctl.allfalse b).2

end Verif.Flow
