import Mathlib.Data.List.Basic
import Mathlib.Data.List.Nodup
import Mathlib.Tactic.Common

/-!
# What a DM proc body can do

The *input* of dreamchecker's control-flow checks, a proc body, and, independently of
how the checker walks it, which of its statements a run of the proc can come to.

The runs are over-approximated: nothing is known about the values of expressions
(except the conditions whose truth is known from their text), every statement may
raise a runtime error, a loop may stop at any time, and a labelled `break` or
`continue` may act on any enclosing loop or label.  A statement that no run of this
kind comes to is not reached by the real program either.
-/

namespace Verif.Flow

/-- A place in the source.  Models `Location`. -/
abbrev Loc := Nat

/-- The `step` of `for(x in a to b step c)`, by its syntactic kind: none, an integer
literal, another single term such as a name, any other expression (`-1` is one: a
unary operator applied to a literal). -/
inductive Step
  | none
  | int (s : Int)
  | term
  | expr
  deriving DecidableEq

/-- What can stand in the head of a `for(init; test; inc)`, as far as control flow goes.
Models the results of `simple_statement`, crates/dreammaker/src/parser.rs:1904-2013. -/
inductive Simple
  /-- nothing, an expression, `var` -/
  | expr
  | ret (value : Bool)
  | crash
  | throw
  | goto (label : String)

mutual
/-- Models `Statement`, crates/dreammaker/src/ast.rs:1502-1567, as far as control flow
goes. -/
inductive Stmt
  /-- an expression, `var`, `del`, … -/
  | simple
  /-- `set name = value`; `own`: the name begins with `SpacemanDMM_` -/
  | setting (own : Bool)
  | ret (value : Bool)
  | crash
  | throw
  /-- `while(e)`, `for()`, `for(x in l)`, `for(k, v in l)` -/
  | loop (body : Block)
  /-- `for(init; test; inc)`.  `test`: what is known about its truth -/
  | forLoop (init : Simple) (test : Option Bool) (inc : Simple) (body : Block)
  | doWhile (body : Block) (cond : Loc)
  | ifs (arms : Arms)
  /-- `for(x in start to stop step step)`; `start` and `stop` when they are integer
  literals -/
  | range (start stop : Option Int) (step : Step) (body : Block)
  | spawn (body : Block)
  | switch (cases : Cases)
  | tryCatch (body handler : Block)
  | cont (label : Option String)
  | brk (label : Option String)
  | goto (label : String)
  | label (name : String) (body : Block)
/-- Statements one after the other, each with its place. -/
inductive Block
  | nil
  | cons (loc : Loc) (s : Stmt) (rest : Block)
/-- `if(c) … else if(c) … else …`.  Each condition with its place and what is known about
its truth, `Expression::is_truthy` (`Verif.Const.is_truthy_sound` says that this is what
the constant folder makes of it). -/
inductive Arms
  | noElse
  | els (body : Block)
  | cons (cond : Loc) (truth : Option Bool) (body : Block) (rest : Arms)
/-- The cases of a `switch`. -/
inductive Cases
  | noDefault
  | dflt (body : Block)
  | cons (body : Block) (rest : Cases)
end

/-- How (a part of) a run ends; `cut`: it has not ended yet, we look at it while it is
still going on. -/
inductive Out
  | normal
  | ret
  | throw
  | brk (label : Option String)
  | cont (label : Option String)
  | cut
  deriving DecidableEq

/-- A loop whose body ends this way may go on with the next round. -/
def Out.GoesOn (o : Out) : Prop := o = .normal ∨ ∃ l, o = .cont l

/-- A loop whose body ends this way may end this way itself. -/
def Out.Passes (o : Out) : Prop := o ≠ .normal ∧ o ≠ .cont none ∧ o ≠ .brk none

/-- The loop over the range can run its body: unless both bounds are literals and it
counts upward from a larger to a smaller number. -/
def MayRun : Option Int → Option Int → Step → Prop
  | some i, some o, .none => i ≤ o
  | some i, some o, .int s => 0 < s → i ≤ o
  | _, _, _ => True

/-- The loop over the range can be over without having run its body. -/
def MaySkip : Option Int → Option Int → Step → Prop
  | some i, some o, .none => o < i
  | some i, some o, .int s => 0 < s → o < i
  | _, _, _ => True

/-- What can be run: the parts of a proc body, and the rounds of a loop, after each of
which `inc` is run. -/
inductive Node
  | stmt (s : Stmt)
  | block (b : Block)
  | arms (a : Arms)
  | cases (c : Cases)
  | part (p : Simple)
  | iter (inc : Simple) (body : Block)

/-- `Run n t o`: there is a run of `n` that comes to the places `t`, in this order, and
ends with `o`.  Jumps by `goto` are not described. -/
inductive Run : Node → List Loc → Out → Prop
  /-- we stop looking -/
  | cut (n) : Run n [] .cut
  /-- a runtime error; this is also what `throw` and `CRASH` do -/
  | error (s) : Run (.stmt s) [] .throw
  | partError (p) : Run (.part p) [] .throw
  | partExpr : Run (.part .expr) [] .normal
  | partRet {v} : Run (.part (.ret v)) [] .ret
  | simple : Run (.stmt .simple) [] .normal
  | setting {own} : Run (.stmt (.setting own)) [] .normal
  | ret {v} : Run (.stmt (.ret v)) [] .ret
  | cont {l} : Run (.stmt (.cont l)) [] (.cont l)
  | brk {l} : Run (.stmt (.brk l)) [] (.brk l)
  | loop {body t o} : Run (.iter .expr body) t o → Run (.stmt (.loop body)) t o
  | forLoop {init test inc body t1 t2 o} : Run (.part init) t1 .normal →
      Run (.iter inc body) t2 o → Run (.stmt (.forLoop init test inc body)) (t1 ++ t2) o
  | forInit {init test inc body t o} : Run (.part init) t o → o ≠ .normal →
      Run (.stmt (.forLoop init test inc body)) t o
  /-- the loop is over -/
  | done {inc body} : Run (.iter inc body) [] .normal
  | round {inc body t1 o1 t2 t3 o} : Run (.block body) t1 o1 → o1.GoesOn →
      Run (.part inc) t2 .normal → Run (.iter inc body) t3 o →
      Run (.iter inc body) (t1 ++ (t2 ++ t3)) o
  | roundInc {inc body t1 o1 t2 o} : Run (.block body) t1 o1 → o1.GoesOn →
      Run (.part inc) t2 o → o ≠ .normal → Run (.iter inc body) (t1 ++ t2) o
  | roundBreak {inc body t l} : Run (.block body) t (.brk l) →
      Run (.iter inc body) t .normal
  | roundPass {inc body t o} : Run (.block body) t o → o.Passes →
      Run (.iter inc body) t o
  /-- the body, then the condition, then the loop is over (or the condition fails) -/
  | doOnce {body c t o1 o} : Run (.block body) t o1 → o1.GoesOn →
      (o = .normal ∨ o = .throw) → Run (.stmt (.doWhile body c)) (t ++ [c]) o
  | doAgain {body c t1 o1 t2 o} : Run (.block body) t1 o1 → o1.GoesOn →
      Run (.stmt (.doWhile body c)) t2 o →
      Run (.stmt (.doWhile body c)) (t1 ++ ([c] ++ t2)) o
  | doBreak {body c t l} : Run (.block body) t (.brk l) →
      Run (.stmt (.doWhile body c)) t .normal
  | doPass {body c t o} : Run (.block body) t o → o.Passes →
      Run (.stmt (.doWhile body c)) t o
  | ifs {a t o} : Run (.arms a) t o → Run (.stmt (.ifs a)) t o
  | noElse : Run (.arms .noElse) [] .normal
  | els {b t o} : Run (.block b) t o → Run (.arms (.els b)) t o
  | take {c truth body rest t o} : truth ≠ some false → Run (.block body) t o →
      Run (.arms (.cons c truth body rest)) (c :: t) o
  | skip {c truth body rest t o} : truth ≠ some true → Run (.arms rest) t o →
      Run (.arms (.cons c truth body rest)) (c :: t) o
  /-- the condition raises a runtime error -/
  | condError {c truth body rest} : Run (.arms (.cons c truth body rest)) [c] .throw
  | rangeSkip {i o step body} : MaySkip i o step →
      Run (.stmt (.range i o step body)) [] .normal
  /-- the first round is the body itself; what comes after is any loop -/
  | rangeRun {i o step body t1 o1 t2 out} : MayRun i o step → Run (.block body) t1 o1 →
      o1.GoesOn → Run (.iter .expr body) t2 out →
      Run (.stmt (.range i o step body)) (t1 ++ t2) out
  | rangeBreak {i o step body t l} : MayRun i o step → Run (.block body) t (.brk l) →
      Run (.stmt (.range i o step body)) t .normal
  | rangePass {i o step body t out} : MayRun i o step → Run (.block body) t out →
      out.Passes → Run (.stmt (.range i o step body)) t out
  /-- the block is run on its own, as far as it gets; the proc goes on at once -/
  | spawn {body t o} : Run (.block body) t o → Run (.stmt (.spawn body)) t .normal
  | switch {c t o} : Run (.cases c) t o → Run (.stmt (.switch c)) t o
  | noDefault : Run (.cases .noDefault) [] .normal
  | dflt {b t o} : Run (.block b) t o → Run (.cases (.dflt b)) t o
  | case {body rest t o} : Run (.block body) t o → Run (.cases (.cons body rest)) t o
  | otherCase {body rest t o} : Run (.cases rest) t o → Run (.cases (.cons body rest)) t o
  | try {body handler t o} : Run (.block body) t o → o ≠ .throw →
      Run (.stmt (.tryCatch body handler)) t o
  | catch {body handler t1 t2 o} : Run (.block body) t1 .throw → Run (.block handler) t2 o →
      Run (.stmt (.tryCatch body handler)) (t1 ++ t2) o
  | label {l body t o} : Run (.block body) t o → Run (.stmt (.label l body)) t o
  | labelLeave {l body t o l'} : Run (.block body) t o →
      (o = .brk (some l') ∨ o = .cont (some l')) → Run (.stmt (.label l body)) t .normal
  | nil : Run (.block .nil) [] .normal
  | seq {loc s rest t1 t2 o} : Run (.stmt s) t1 .normal → Run (.block rest) t2 o →
      Run (.block (.cons loc s rest)) (loc :: (t1 ++ t2)) o
  | seqStop {loc s rest t o} : Run (.stmt s) t o → o ≠ .normal →
      Run (.block (.cons loc s rest)) (loc :: t) o

/-- A run of the proc can come to this place. -/
def Reaches (b : Block) (loc : Loc) : Prop := ∃ t o, Run (.block b) t o ∧ loc ∈ t

/-- A run of the block can get to its end. -/
def Completes (b : Block) : Prop := ∃ t, Run (.block b) t .normal

mutual
/-- The places in a statement, other than its own. -/
def Stmt.locs : Stmt → List Loc
  | .simple | .setting _ | .ret _ | .crash | .throw | .cont _ | .brk _ | .goto _ => []
  | .loop body => body.locs
  | .forLoop _ _ _ body => body.locs
  | .doWhile body c => c :: body.locs
  | .ifs a => a.locs
  | .range _ _ _ body => body.locs
  | .spawn body => body.locs
  | .switch c => c.locs
  | .tryCatch b h => b.locs ++ h.locs
  | .label _ body => body.locs
/-- The places in a block. -/
def Block.locs : Block → List Loc
  | .nil => []
  | .cons loc s rest => loc :: (s.locs ++ rest.locs)
/-- The places in the arms of an `if`. -/
def Arms.locs : Arms → List Loc
  | .noElse => []
  | .els b => b.locs
  | .cons c _ body rest => c :: (body.locs ++ rest.locs)
/-- The places in the cases of a `switch`. -/
def Cases.locs : Cases → List Loc
  | .noDefault => []
  | .dflt b => b.locs
  | .cons body rest => body.locs ++ rest.locs
end

mutual
/-- A `break` or `continue` in the statement can act on something around it: one with
a label, or (`own`) one without a label that is not in an inner loop. -/
def Stmt.jumps (own : Bool) : Stmt → Bool
  | .cont l | .brk l => own || l.isSome
  | .simple | .setting _ | .ret _ | .crash | .throw | .goto _ | .spawn _ => false
  | .loop body | .doWhile body _ | .range _ _ _ body | .forLoop _ _ _ body => body.jumps false
  | .ifs a => a.jumps own
  | .switch c => c.jumps own
  | .tryCatch b h => b.jumps own || h.jumps own
  | .label _ body => body.jumps own
/-- see `Stmt.jumps` -/
def Block.jumps (own : Bool) : Block → Bool
  | .nil => false
  | .cons _ s rest => s.jumps own || rest.jumps own
/-- see `Stmt.jumps` -/
def Arms.jumps (own : Bool) : Arms → Bool
  | .noElse => false
  | .els b => b.jumps own
  | .cons _ _ body rest => body.jumps own || rest.jumps own
/-- see `Stmt.jumps` -/
def Cases.jumps (own : Bool) : Cases → Bool
  | .noDefault => false
  | .dflt b => b.jumps own
  | .cons body rest => body.jumps own || rest.jumps own
end

/-- The body of a loop that is run at least once is *plain*: a run can get to its end, or
no `break` and no `continue` in it acts on this loop (or on something around it). -/
def Plain (body : Block) : Prop := body.jumps true = false ∨ Completes body

/-- A loop over a range the checker understands.  When both bounds are literals: they are
not both 0; without a step, the body is plain; with a step, a run can get to the end of
the body, or the step is a positive literal, the range ascending and no `break` or
`continue` acts on the loop; if the step is a name, the range is ascending. -/
def RangeOk : Option Int → Option Int → Step → Block → Prop
  | some i, some o, .none, body => ¬ (i = 0 ∧ o = 0) ∧ Plain body
  | some i, some o, .int s, body => ¬ (i = 0 ∧ o = 0) ∧
      (Completes body ∨ 0 < s ∧ i ≤ o ∧ body.jumps true = false)
  | some i, some o, .term, body => ¬ (i = 0 ∧ o = 0) ∧ i ≤ o ∧ Completes body
  | some i, some o, .expr, body => ¬ (i = 0 ∧ o = 0) ∧ Completes body
  | _, _, _, _ => True

mutual
/-- Every do-while loop has a plain body, and every loop over a range is one the checker
understands. -/
def Stmt.Careful : Stmt → Prop
  | .simple | .setting _ | .ret _ | .crash | .throw | .cont _ | .brk _ | .goto _ => True
  | .loop body | .spawn body | .label _ body | .forLoop _ _ _ body => body.Careful
  | .doWhile body _ => Plain body ∧ body.Careful
  | .ifs a => a.Careful
  | .range i o step body => RangeOk i o step body ∧ body.Careful
  | .switch c => c.Careful
  | .tryCatch b h => b.Careful ∧ h.Careful
/-- see `Stmt.Careful` -/
def Block.Careful : Block → Prop
  | .nil => True
  | .cons _ s rest => s.Careful ∧ rest.Careful
/-- see `Stmt.Careful` -/
def Arms.Careful : Arms → Prop
  | .noElse => True
  | .els b => b.Careful
  | .cons _ _ body rest => body.Careful ∧ rest.Careful
/-- see `Stmt.Careful` -/
def Cases.Careful : Cases → Prop
  | .noDefault => True
  | .dflt b => b.Careful
  | .cons body rest => body.Careful ∧ rest.Careful
end

/-- It is not a `goto`. -/
def Simple.noGoto : Simple → Bool
  | .goto _ => false
  | _ => true

mutual
/-- There is no `goto`. -/
def Stmt.noGoto : Stmt → Bool
  | .goto _ => false
  | .simple | .setting _ | .ret _ | .crash | .throw | .cont _ | .brk _ => true
  | .loop body | .spawn body | .label _ body | .doWhile body _ | .range _ _ _ body =>
      body.noGoto
  | .forLoop init _ inc body => init.noGoto && inc.noGoto && body.noGoto
  | .ifs a => a.noGoto
  | .switch c => c.noGoto
  | .tryCatch b h => b.noGoto && h.noGoto
/-- see `Stmt.noGoto` -/
def Block.noGoto : Block → Bool
  | .nil => true
  | .cons _ s rest => s.noGoto && rest.noGoto
/-- see `Stmt.noGoto` -/
def Arms.noGoto : Arms → Bool
  | .noElse => true
  | .els b => b.noGoto
  | .cons _ _ body rest => body.noGoto && rest.noGoto
/-- see `Stmt.noGoto` -/
def Cases.noGoto : Cases → Bool
  | .noDefault => true
  | .dflt b => b.noGoto
  | .cons body rest => body.noGoto && rest.noGoto
end

/-! ## Where things are in a proc body -/

/-- A part of a proc body. -/
inductive Site
  | stmt (loc : Loc) (s : Stmt)
  | block (b : Block)
  | arms (a : Arms)
  | cases (c : Cases)

/-- `Child x k y`: `y` is directly inside `x`; `k` is 1 if there is a `spawn` between
them. -/
inductive Child : Site → Nat → Site → Prop
  | head {loc s rest} : Child (.block (.cons loc s rest)) 0 (.stmt loc s)
  | tail {loc s rest} : Child (.block (.cons loc s rest)) 0 (.block rest)
  | loop {loc body} : Child (.stmt loc (.loop body)) 0 (.block body)
  | forLoop {loc i t c body} : Child (.stmt loc (.forLoop i t c body)) 0 (.block body)
  | doWhile {loc body c} : Child (.stmt loc (.doWhile body c)) 0 (.block body)
  | ifs {loc a} : Child (.stmt loc (.ifs a)) 0 (.arms a)
  | range {loc i o s body} : Child (.stmt loc (.range i o s body)) 0 (.block body)
  | spawn {loc body} : Child (.stmt loc (.spawn body)) 1 (.block body)
  | switch {loc c} : Child (.stmt loc (.switch c)) 0 (.cases c)
  | try {loc b h} : Child (.stmt loc (.tryCatch b h)) 0 (.block b)
  | catch {loc b h} : Child (.stmt loc (.tryCatch b h)) 0 (.block h)
  | label {loc l body} : Child (.stmt loc (.label l body)) 0 (.block body)
  | els {b} : Child (.arms (.els b)) 0 (.block b)
  | arm {c t body rest} : Child (.arms (.cons c t body rest)) 0 (.block body)
  | nextArm {c t body rest} : Child (.arms (.cons c t body rest)) 0 (.arms rest)
  | dflt {b} : Child (.cases (.dflt b)) 0 (.block b)
  | case {body rest} : Child (.cases (.cons body rest)) 0 (.block body)
  | nextCase {body rest} : Child (.cases (.cons body rest)) 0 (.cases rest)

/-- `Sub x n y`: `y` is `x` or inside `x`, in `n` nested `spawn`s of `x`. -/
inductive Sub (x : Site) : Nat → Site → Prop
  | self : Sub x 0 x
  | step {n k y z} : Sub x n y → Child y k z → Sub x (n + k) z

/-- `b'` is a whole block of the body `b`: `b` itself, or a block directly inside a
statement, an arm or a case (not a block without its first statements). -/
def WholeBlock (b b' : Block) : Prop :=
  b' = b ∨ ∃ n x k, Sub (.block b) n x ∧ (∀ y, x ≠ .block y) ∧ Child x k (.block b')

/-- A `return` with a value, or a `for` with one in its head. -/
def Stmt.ReturnsValue : Stmt → Prop
  | .ret v => v = true
  | .forLoop init _ inc _ => init = .ret true ∨ inc = .ret true
  | _ => False

/-- The places of the `set` statements at the top of a block, before any other
statement. -/
def Block.leading : Block → List Loc
  | .cons loc (.setting _) rest => loc :: rest.leading
  | _ => []

/-- One block after the other. -/
def Block.append : Block → Block → Block
  | .nil, b => b
  | .cons loc s rest, b => .cons loc s (rest.append b)

mutual
/-- There is no `break` and no `continue` in it. -/
def Stmt.jumpFree : Stmt → Bool
  | .cont _ | .brk _ => false
  | .simple | .setting _ | .ret _ | .crash | .throw | .goto _ => true
  | .loop body | .doWhile body _ | .range _ _ _ body | .forLoop _ _ _ body | .spawn body
  | .label _ body => body.jumpFree
  | .ifs a => a.jumpFree
  | .switch c => c.jumpFree
  | .tryCatch b h => b.jumpFree && h.jumpFree
/-- see `Stmt.jumpFree` -/
def Block.jumpFree : Block → Bool
  | .nil => true
  | .cons _ s rest => s.jumpFree && rest.jumpFree
/-- see `Stmt.jumpFree` -/
def Arms.jumpFree : Arms → Bool
  | .noElse => true
  | .els b => b.jumpFree
  | .cons _ _ body rest => body.jumpFree && rest.jumpFree
/-- see `Stmt.jumpFree` -/
def Cases.jumpFree : Cases → Bool
  | .noDefault => true
  | .dflt b => b.jumpFree
  | .cons body rest => body.jumpFree && rest.jumpFree
end

/-- The place of a condition in the chain, or of the first statement of its `else`. -/
inductive Arms.Has : Arms → Loc → Prop
  | here {c t body rest} : Has (.cons c t body rest) c
  | els {loc s rest} : Has (.els (.cons loc s rest)) loc
  | later {c t body rest loc} : Has rest loc → Has (.cons c t body rest) loc

/-- The ways to leave a block for good. -/
inductive Leave
  | ret
  | cont
  | brk

/-- The statement leaves the block this way; `CRASH` counts as `return`. -/
def Stmt.Leaves : Leave → Stmt → Prop
  | .ret, .ret _ | .ret, .crash | .cont, .cont _ | .brk, .brk _ => True
  | _, _ => False

/-- The last statement of the block leaves it this way, and there is no `break` and no
`continue` before it. -/
def Block.EndsIn (k : Leave) (b : Block) : Prop :=
  ∃ (pre : Block) (loc : Loc) (s : Stmt), b = pre.append (.cons loc s .nil) ∧
    pre.jumpFree = true ∧ s.Leaves k

/-- The chain has an `else`, and all blocks of it (but those whose condition is known to be false)
are left this way. -/
def Arms.AllEnd (k : Leave) : Arms → Prop
  | .noElse => False
  | .els b => b.EndsIn k
  | .cons _ truth body rest => (truth = some false ∨ body.EndsIn k) ∧ rest.AllEnd k

/-- The `switch` has a default, and all blocks of it are left this way. -/
def Cases.AllEnd (k : Leave) : Cases → Prop
  | .noDefault => False
  | .dflt b => b.EndsIn k
  | .cons body rest => body.EndsIn k ∧ rest.AllEnd k

/-- A statement that is left this way whatever happens. -/
def Stmt.AlwaysLeaves (k : Leave) : Stmt → Prop
  | .ifs a => a.AllEnd k
  | .switch c => c.AllEnd k
  | s => k = .ret ∧ s.Leaves .ret

end Verif.Flow
