import Verif.Typing.StmtModel
import Verif.Typing.Spec

/-!
# Which statements and expressions of a proc body are looked at, with which local variables

The scoping rules, independently of how the body is walked.

* `After`, `AfterAll`: the local variables that a statement leaves to the statements after it in the same block.
* `Child`: the statements directly inside a statement, with their local variables.
* `Stands`: all statements inside a block that are looked at.
* `Looks`: the expressions directly in a statement.
* `Own`: what is reported for a statement itself.
-/

namespace Verif.Typing

open Verif.Flow (Ctl)

/-! ## Control flow

What C61 and C62 speak about. -/

mutual

/-- What is known at an expression: the local variables there, and that it runs in a new context if there is a `spawn` around
it. -/
def Walk.inside (w : Walk) (v : Env) (n : Nat) : Ctx where
  tree := w.tree
  returns := w.returns
  privateBy := w.privateBy
  protectedBy := w.protectedBy
  ty := w.ty
  proc := w.proc
  newContext := n != 0
  locals := v

/-- The statement as far as control flow goes. -/
def Stmt.flow : Stmt → Flow.Stmt
  | .expr _ => .simple
  | .ret e => .ret e.isSome
  | .crash _ => .crash
  | .throw _ => .throw
  | .while _ b => .loop b.flow
  | .doWhile b c => .doWhile b.flow c.loc
  | .ifs a => .ifs a.flow
  | .forever b => .loop b.flow
  | .for i t k b => .forLoop i.flow (t.bind Cond.truth) k.flow b.flow
  | .forIn _ _ _ b => .loop b.flow
  | .forTo _ _ _ _ _ lo hi kind b => .range lo hi kind b.flow
  | .forPairs _ _ _ _ b => .loop b.flow
  | .vars _ => .simple
  | .setting n _ _ => .setting (n.startsWith "SpacemanDMM_")
  | .spawn _ b => .spawn b.flow
  | .switch _ cs => .switch cs.flow
  | .tryCatch b _ h => .tryCatch b.flow h.flow
  | .cont l => .cont l
  | .brk l => .brk l
  | .goto l => .goto l
  | .label l b => .label l b.flow
  | .del _ => .simple

/-- The same for a block. -/
def Block.flow : Block → Flow.Block
  | .nil => .nil
  | .cons l s b => .cons l s.flow b.flow

/-- The same for a statement in the head of a `for`. -/
def Head.flow : Head → Flow.Simple
  | .none => .expr
  | .some (.ret e) => .ret e.isSome
  | .some (.crash _) => .crash
  | .some (.throw _) => .throw
  | .some (.goto l) => .goto l
  | .some _ => .expr

/-- The same for the arms of an `if`. -/
def Arms.flow : Arms → Flow.Arms
  | .noElse => .noElse
  | .els b => .els b.flow
  | .cons c b rest => .cons c.loc c.truth b.flow rest.flow

/-- The same for the cases of a `switch`. -/
def Cases.flow : Cases → Flow.Cases
  | .noDefault => .noDefault
  | .dflt b => .dflt b.flow
  | .cons _ _ b rest => .cons b.flow rest.flow

end

/-- Statements as a block. -/
def blockOf : List (Loc × Stmt) → Block
  | [] => .nil
  | (l, s) :: rest => .cons l s (blockOf rest)

/-- How control leaves these statements, according to the checker. -/
def leaves (ss : List (Loc × Stmt)) : Ctl := (Flow.visitBlock 0 true Ctl.allfalse (blockOf ss).flow).1

/-- The checker holds that what comes after these statements in the block is not reached, and says so if there is anything
(C61, C62). -/
def Ends (ss : List (Loc × Stmt)) : Prop := (leaves ss).terminates = true

/-- The checker holds that the condition of a do-while with this body is not reached. -/
def EndsLoop (ss : List (Loc × Stmt)) : Prop := (leaves ss).terminatesLoop = true

/-! ## Local variables -/

/-- The static type that a declared path gives. -/
def Typed (t : Tree) (path : List Ident) (s : STy) : Prop := ∃ r, PathType t path r ∧ s = r.getD .none

/-- A declaration of a local variable: from then on it has the declared type and the constant value of its initializer, or
null without one. -/
inductive Declared (w : Walk) (v : Env) (n : Nat) : VarDef → Env → Prop
  | plain {path : List Ident} {x : Ident} {s : STy} : Typed w.tree path s →
      Declared w v n ⟨path, x, none⟩ (v.set x { st := s, value := some .null })
  | init {path : List Ident} {x : Ident} {e : Expr} {s : STy} {h : Option Nat} {a : An} : Typed w.tree path s →
      HintOf w.tree s h → ExprIs (w.inside v n) h e a →
      Declared w v n ⟨path, x, some e⟩ (v.set x { st := s, value := a.value, impure := a.impure })

/-- Several declarations. -/
inductive DeclaredAll (w : Walk) (n : Nat) : Env → List VarDef → Env → Prop
  | nil {v : Env} : DeclaredAll w n v [] v
  | cons {v v' v'' : Env} {d : VarDef} {ds : List VarDef} :
      Declared w v n d v' → DeclaredAll w n v' ds v'' → DeclaredAll w n v (d :: ds) v''

/-- What a statement leaves to those after it: its declarations, and what `return` gave to `.`; nothing from inside its
blocks. -/
inductive After (w : Walk) (v : Env) (n : Nat) : Stmt → Env → Prop
  | vars {ds : List VarDef} {v' : Env} : DeclaredAll w n v ds v' → After w v n (.vars ds) v'
  | ret {e : Expr} {a : An} : ExprIs (w.inside v n) none e a → After w v n (.ret (some e)) (v.set "." a)
  | same {s : Stmt} : (∀ ds, s ≠ .vars ds) → (∀ e, s ≠ .ret (some e)) → After w v n s v

/-- The same for statements one after the other. -/
inductive AfterAll (w : Walk) (n : Nat) : Env → List (Loc × Stmt) → Env → Prop
  | nil {v : Env} : AfterAll w n v [] v
  | cons {v v' v'' : Env} {l : Loc} {s : Stmt} {ss : List (Loc × Stmt)} :
      After w v n s v' → AfterAll w n v' ss v'' → AfterAll w n v ((l, s) :: ss) v''

/-- The local variables at the end of a block, which is where the checker stops looking at it. -/
def AtEnd (w : Walk) (v : Env) (n : Nat) (b : Block) (v' : Env) : Prop :=
  ∃ pre post, b.toList = pre ++ post ∧ (post = [] ∨ Ends pre) ∧ (∀ p x q, pre = p ++ x :: q → ¬ Ends p) ∧
    AfterAll w n v pre v'

/-- The same for a statement in the head of a `for`. -/
inductive AfterHead (w : Walk) (v : Env) (n : Nat) : Head → Env → Prop
  | none : AfterHead w v n .none v
  | some {s : Stmt} {v' : Env} : After w v n s v' → AfterHead w v n (.some s) v'

/-- The variable of a `for`, if it declares one. -/
inductive LoopVar (w : Walk) (v : Env) (n : Nat) (x : Ident) (start : Option Expr) : Option (List Ident) → Env → Prop
  | none : LoopVar w v n x start none v
  | some {path : List Ident} {v' : Env} : Declared w v n ⟨path, x, start⟩ v' → LoopVar w v n x start (some path) v'

/-- The variable of a `catch`: the last part of the path, and its type. -/
inductive Caught : List Ident → VarDef → Prop
  | var {ty : List Ident} {x : Ident} : Caught ("var" :: ty ++ [x]) ⟨ty, x, none⟩
  | bare {ty : List Ident} {x : Ident} : ty.head? ≠ some "var" → Caught (ty ++ [x]) ⟨ty, x, none⟩

/-- The variables of a `catch`; an empty path declares none. -/
inductive CaughtAll : List (List Ident) → List VarDef → Prop
  | nil : CaughtAll [] []
  | skip {ps : List (List Ident)} {ds : List VarDef} : CaughtAll ps ds → CaughtAll ([] :: ps) ds
  | cons {p : List Ident} {d : VarDef} {ps : List (List Ident)} {ds : List VarDef} :
      Caught p d → CaughtAll ps ds → CaughtAll (p :: ps) (d :: ds)

/-! ## Statements inside statements -/

/-- An arm of an `if`. -/
inductive Arms.Has : Arms → Cond → Block → Prop
  | here {c : Cond} {b : Block} {rest : Arms} : Arms.Has (.cons c b rest) c b
  | later {c c' : Cond} {b b' : Block} {rest : Arms} : Arms.Has rest c' b' → Arms.Has (.cons c b rest) c' b'

/-- The `else` of an `if`. -/
inductive Arms.Else : Arms → Block → Prop
  | here {b : Block} : Arms.Else (.els b) b
  | later {c : Cond} {b b' : Block} {rest : Arms} : Arms.Else rest b' → Arms.Else (.cons c b rest) b'

/-- A case of a `switch`. -/
inductive Cases.Has : Cases → Loc → List Case → Block → Prop
  | here {l : Loc} {ks : List Case} {b : Block} {rest : Cases} : Cases.Has (.cons l ks b rest) l ks b
  | later {l l' : Loc} {ks ks' : List Case} {b b' : Block} {rest : Cases} :
      Cases.Has rest l' ks' b' → Cases.Has (.cons l ks b rest) l' ks' b'

/-- The `else` of a `switch`. -/
inductive Cases.Else : Cases → Block → Prop
  | here {b : Block} : Cases.Else (.dflt b) b
  | later {l : Loc} {ks : List Case} {b b' : Block} {rest : Cases} : Cases.Else rest b' → Cases.Else (.cons l ks b rest) b'

/-- The blocks directly inside a statement, with the local variables at their beginning and the number of `spawn`s around
them. -/
inductive InnerBlock (w : Walk) (v : Env) (n : Nat) : Stmt → Env → Nat → Block → Prop
  | while {c : Expr} {b : Block} : InnerBlock w v n (.while c b) v n b
  | doWhile {b : Block} {c : Cond} : InnerBlock w v n (.doWhile b c) v n b
  | arm {a : Arms} {c : Cond} {b : Block} : a.Has c b → InnerBlock w v n (.ifs a) v n b
  | els {a : Arms} {b : Block} : a.Else b → InnerBlock w v n (.ifs a) v n b
  | forever {b : Block} : InnerBlock w v n (.forever b) v n b
  | for {i k : Head} {t : Option Cond} {b : Block} {v' v'' : Env} : AfterHead w v n i v' → AfterHead w v' n k v'' →
      InnerBlock w v n (.for i t k b) v'' n b
  | forIn {ty : Option (List Ident)} {x : Ident} {e : Option Expr} {b : Block} {v' : Env} : LoopVar w v n x none ty v' →
      InnerBlock w v n (.forIn ty x e b) v' n b
  | forTo {ty : Option (List Ident)} {x : Ident} {e f : Expr} {g : Option Expr} {lo hi : Option Int} {kind : Flow.Step}
      {b : Block} {v' : Env} : LoopVar w v n x (some e) ty v' → InnerBlock w v n (.forTo ty x e f g lo hi kind b) v' n b
  | forPairs {ty : Option (List Ident)} {x y : Ident} {e : Option Expr} {b : Block} {v' v'' : Env} :
      LoopVar w v n x none ty v' → Declared w v' n ⟨[], y, none⟩ v'' → InnerBlock w v n (.forPairs ty x y e b) v'' n b
  | spawn {d : Option Expr} {b : Block} : InnerBlock w v n (.spawn d b) v ((n + 1) % 4294967296) b
  | case {c : Cond} {cs : Cases} {l : Loc} {ks : List Case} {b : Block} : cs.Has l ks b → InnerBlock w v n (.switch c cs) v n b
  | dflt {c : Cond} {cs : Cases} {b : Block} : cs.Else b → InnerBlock w v n (.switch c cs) v n b
  | try {b h : Block} {ps : List (List Ident)} : InnerBlock w v n (.tryCatch b ps h) v n b
  | catch {b h : Block} {ps : List (List Ident)} {ds : List VarDef} {v' : Env} : CaughtAll ps ds →
      DeclaredAll w n v ds v' → InnerBlock w v n (.tryCatch b ps h) v' n h
  | label {x : Ident} {b : Block} : InnerBlock w v n (.label x b) v n b

/-- A statement directly in a block: one is looked at unless those before it end the block. -/
def Direct (w : Walk) (v : Env) (n : Nat) (b : Block) (v' : Env) (l : Loc) (s : Stmt) : Prop :=
  ∃ pre post, b.toList = pre ++ (l, s) :: post ∧ ¬ Ends pre ∧ AfterAll w n v pre v'

/-- A statement directly inside a statement, with its local variables, the number of `spawn`s around it and its place. -/
inductive Child (w : Walk) (v : Env) (n : Nat) (l : Loc) (s : Stmt) : Env → Nat → Loc → Stmt → Prop
  | block {v' v'' : Env} {n' : Nat} {b : Block} {l' : Loc} {s' : Stmt} : InnerBlock w v n s v' n' b →
      Direct w v' n' b v'' l' s' → Child w v n l s v'' n' l' s'
  | init {i : Stmt} {t : Option Cond} {k : Head} {b : Block} : s = .for (.some i) t k b → Child w v n l s v n l i
  | inc {i : Head} {t : Option Cond} {k : Stmt} {b : Block} {v' : Env} : s = .for i t (.some k) b → AfterHead w v n i v' →
      Child w v n l s v' n l k

/-- The statements inside a block that are looked at. -/
inductive Stands (w : Walk) (v : Env) (n : Nat) (b : Block) : Env → Nat → Loc → Stmt → Prop
  | direct {v' : Env} {l : Loc} {s : Stmt} : Direct w v n b v' l s → Stands w v n b v' n l s
  | child {v' v'' : Env} {n' n'' : Nat} {l l' : Loc} {s s' : Stmt} : Stands w v n b v' n' l s →
      Child w v' n' l s v'' n'' l' s' → Stands w v n b v'' n'' l' s'

/-! ## Expressions in statements, and what is reported -/

/-- The declarations of a statement itself, with the local variables before each. -/
inductive Decls (w : Walk) (v : Env) (n : Nat) : Stmt → Env → VarDef → Prop
  | vars {ds pre post : List VarDef} {d : VarDef} {v' : Env} : ds = pre ++ d :: post → DeclaredAll w n v pre v' →
      Decls w v n (.vars ds) v' d
  | forIn {path : List Ident} {x : Ident} {e : Option Expr} {b : Block} :
      Decls w v n (.forIn (some path) x e b) v ⟨path, x, none⟩
  | forTo {path : List Ident} {x : Ident} {e f : Expr} {g : Option Expr} {lo hi : Option Int} {kind : Flow.Step}
      {b : Block} : Decls w v n (.forTo (some path) x e f g lo hi kind b) v ⟨path, x, some e⟩
  | forPairs {path : List Ident} {x y : Ident} {e : Option Expr} {b : Block} :
      Decls w v n (.forPairs (some path) x y e b) v ⟨path, x, none⟩
  | catch {b h : Block} {ps : List (List Ident)} {ds pre post : List VarDef} {d : VarDef} {v' : Env} : CaughtAll ps ds →
      ds = pre ++ d :: post → DeclaredAll w n v pre v' → Decls w v n (.tryCatch b ps h) v' d

/-- The list that a `for` goes over. -/
inductive Iterates : Stmt → Expr → Prop
  | forIn {ty : Option (List Ident)} {x : Ident} {e : Expr} {b : Block} : Iterates (.forIn ty x (some e) b) e
  | forPairs {ty : Option (List Ident)} {x y : Ident} {e : Expr} {b : Block} : Iterates (.forPairs ty x y (some e) b) e

/-- The expressions directly in a statement: with the local variables, number of `spawn`s, place and type hint with which
they are looked at.  Not among them: the start of `for(x = a to b)` when the loop does not declare `x`, and the names in
the heads of loops. -/
inductive Looks (w : Walk) (v : Env) (n : Nat) (l : Loc) : Stmt → Env → Nat → Loc → Option Nat → Expr → Prop
  | expr {e : Expr} : Looks w v n l (.expr e) v n l none e
  | ret {e : Expr} : Looks w v n l (.ret (some e)) v n l none e
  | crash {e : Expr} : Looks w v n l (.crash (some e)) v n l none e
  | throw {e : Expr} : Looks w v n l (.throw e) v n l none e
  | del {e : Expr} : Looks w v n l (.del e) v n l none e
  | while {e : Expr} {b : Block} : Looks w v n l (.while e b) v n l none e
  | doWhile {b : Block} {c : Cond} {v' : Env} : ¬ EndsLoop b.toList → AtEnd w v n b v' →
      Looks w v n l (.doWhile b c) v' n c.loc none c.e
  | arm {a : Arms} {c : Cond} {b : Block} : a.Has c b → Looks w v n l (.ifs a) v n c.loc none c.e
  | test {i k : Head} {c : Cond} {b : Block} {v' : Env} : AfterHead w v n i v' →
      Looks w v n l (.for i (some c) k b) v' n l none c.e
  | list {s : Stmt} {e : Expr} : Iterates s e → Looks w v n l s v n l none e
  | stop {ty : Option (List Ident)} {x : Ident} {e f : Expr} {g : Option Expr} {lo hi : Option Int} {kind : Flow.Step}
      {b : Block} : Looks w v n l (.forTo ty x e f g lo hi kind b) v n l none f
  | step {ty : Option (List Ident)} {x : Ident} {e f g : Expr} {lo hi : Option Int} {kind : Flow.Step}
      {b : Block} : Looks w v n l (.forTo ty x e f (some g) lo hi kind b) v n l none g
  | init {s : Stmt} {v' : Env} {path : List Ident} {x : Ident} {e : Expr} {t : STy} {h : Option Nat} :
      Decls w v n s v' ⟨path, x, some e⟩ → Typed w.tree path t → HintOf w.tree t h → Looks w v n l s v' n l h e
  | delay {e : Expr} {b : Block} : Looks w v n l (.spawn (some e) b) v ((n + 1) % 4294967296) l none e
  | input {c : Cond} {cs : Cases} : Looks w v n l (.switch c cs) v n l none c.e
  | exact {c : Cond} {cs : Cases} {l' : Loc} {ks : List Case} {b : Block} {e : Expr} : cs.Has l' ks b → .exact e ∈ ks →
      Looks w v n l (.switch c cs) v n l' none e
  | low {c : Cond} {cs : Cases} {l' : Loc} {ks : List Case} {b : Block} {e f : Expr} : cs.Has l' ks b →
      .range e f ∈ ks → Looks w v n l (.switch c cs) v n l' none e
  | high {c : Cond} {cs : Cases} {l' : Loc} {ks : List Case} {b : Block} {e f : Expr} : cs.Has l' ks b →
      .range e f ∈ ks → Looks w v n l (.switch c cs) v n l' none f

/-- A type whose values cannot be iterated over, or only if they happen to be atoms. -/
inductive BadIteration (w : Walk) : STy → SMsg → Prop
  | proc : BadIteration w .proc .iteratesProc
  | datum {i : Nat} : i ≠ w.tree.expect "world" → i ≠ w.tree.expect "list" → i ≠ w.tree.expect "alist" →
      ¬ Sub w.tree i (w.tree.expect "atom") → Sub w.tree (w.tree.expect "atom") i → BadIteration w (.type i) .iteratesDatum
  | other {i : Nat} : i ≠ w.tree.expect "world" → i ≠ w.tree.expect "list" → i ≠ w.tree.expect "alist" →
      ¬ Sub w.tree i (w.tree.expect "atom") → ¬ Sub w.tree (w.tree.expect "atom") i →
      BadIteration w (.type i) (.iteratesType i)

/-- What is reported for a statement itself, and where. -/
inductive Own (w : Walk) (v : Env) (n : Nat) (l : Loc) (s : Stmt) : Loc → SMsg → Prop
  | expr {v' : Env} {n' : Nat} {l' : Loc} {h : Option Nat} {e : Expr} {site : Site} {eff : Effect} :
      Looks w v n l s v' n' l' h e → At (w.inside v' n') l' h e site → Due (w.inside v' n') site eff →
      Own w v n l s site.loc (.expr eff)
  | type {v' : Env} {d : VarDef} {p : List Ident} : Decls w v n s v' d → Missing w.tree d.path p →
      Own w v n l s l (.expr (.msg (.undefinedType p)))
  | pureDiscarded {l' : Loc} {x : Ident} {es : Exprs} {fs : Follows} {p : Proc} : s = .expr (.base l' (.call x es) fs) →
      (∀ g k m as, (g, Follow.call k m as) ∉ fs.toList) → Defines w.tree w.ty x p → w.pure p = true →
      Own w v n l s l (.pureDiscarded x)
  | impureShift {e f : Expr} {a : An} : s = .expr (.binary .lshift e f) → ExprIs (w.inside v n) none e a → a.impure = true →
      Own w v n l s l .impureShift
  | iterates {e : Expr} {a : An} {m : SMsg} : Iterates s e → ExprIs (w.inside v n) none e a → BadIteration w a.st m →
      Own w v n l s l m
  | fixedIf {a : Arms} {c : Cond} {b : Block} : s = .ifs a → a.Has c b → c.fixed = true → Own w v n l s c.loc .fixedCondition
  | fixedTest {i k : Head} {c : Cond} {b : Block} : s = .for i (some c) k b → c.fixed = true →
      Own w v n l s l .fixedCondition
  | fixedSwitch {c : Cond} {cs : Cases} : s = .switch c cs → c.fixed = true → Own w v n l s l .fixedCondition
  | waitforZero {l' : Loc} : s = .setting "waitfor" true (.base l' (.int 0) .nil) → Own w v n l s l .waitfor
  | waitforFalse {l' : Loc} : s = .setting "waitfor" true (.base l' (.ident "FALSE") .nil) → Own w v n l s l .waitfor
  | orInCase {c : Cond} {cs : Cases} {l' : Loc} {e f : Expr} {b : Block} : s = .switch c cs →
      cs.Has l' [.exact (.binary .or e f)] b → Own w v n l s l' .orInCase
  | catchParams {b h : Block} {ps : List (List Ident)} : s = .tryCatch b ps h → 1 < ps.length →
      Own w v n l s l (.catchParams ps.length)

/-! ## The whole proc -/

/-- The local variables at the beginning of a proc, before its parameters. -/
inductive Given0 (w : Walk) : Ident → An → Prop
  | dot : Given0 w "." {}
  | args : Given0 w "args" { st := .type (w.tree.expect "list"), impure := true }
  | usr : Given0 w "usr" { st := .type (w.tree.expect "mob") }
  | callee : Given0 w "callee" { st := .type (w.tree.expect "callee") }
  | caller : Given0 w "caller" { st := .type (w.tree.expect "callee") }
  | src : w.ty ≠ 0 → Given0 w "src" { st := .type w.ty }
  | global : Given0 w "global" { st := .type 0, impure := true }

/-- The local variables at the beginning of a proc: a parameter hides the ones before it. -/
inductive Begins (w : Walk) : List Param → Ident → An → Prop
  | none {x : Ident} {a : An} : Given0 w x a → Begins w [] x a
  | param {ps : List Param} {p : Param} {s : STy} : Typed w.tree p.path s →
      Begins w (ps ++ [p]) p.name { st := s, impure := true }
  | other {ps : List Param} {p : Param} {x : Ident} {a : An} : x ≠ p.name → Begins w ps x a → Begins w (ps ++ [p]) x a

end Verif.Typing
