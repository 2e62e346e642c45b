import Verif.Typing.Spec

/-!
# What running an expression does, as far as undefined names go (C84)

A small run-time semantics of DM expressions.  It is not part of SpacemanDMM: it says what the checker's messages about
undefined names are about.  Values are known by their type, lists by what is in them; what variables and procs give is left
open, see `World`.  It has more runs than DM has: operands may run in any order, and nothing is skipped because of a value.
-/

namespace Verif.Typing

/-- Values at run time: null, numbers, texts, files and paths, objects of exactly a type, lists with everything in them, and
procs. -/
inductive RVal
  | null
  | plain
  | obj (i : Nat)
  | list (elems : List RVal)
  | proc

/-- How running an expression ends: with a value, with a run-time error that the checker does not speak about (such as
reading a variable of null), or at an undefined name. -/
inductive Out
  | val (v : RVal)
  | crash
  | undefined (n : Ident)

/-- It did not give a value. -/
def Out.stops : Out → Prop
  | .val _ => False
  | _ => True

/-- A value is what the static type says.  Null always is; nothing is said without a type. -/
inductive Fits (t : Tree) : RVal → STy → Prop
  | any (v : RVal) : Fits t v .none
  | null (s : STy) : Fits t .null s
  | obj {i j : Nat} : Sub t i j → i ≠ t.expect "list" → Fits t (.obj i) (.type j)
  | list {es : List RVal} {j : Nat} : Sub t (t.expect "list") j → Fits t (.list es) (.type j)
  | elems {es : List RVal} {k : STy} : (∀ e ∈ es, Fits t e k) → Fits t (.list es) (.list k)
  | proc : Fits t .proc .proc

/-- Objects of the type have this variable.  A variable of the root is global and belongs to no object. -/
def HasField (t : Tree) (i : Nat) (n : Ident) : Prop := ∃ j d, Sub t i j ∧ j ≠ 0 ∧ t.vars j n = some d

/-- What a call of proc `n` on an object of the type runs.  The procs of the root are global and belong to no object. -/
def Runs (t : Tree) (i : Nat) (n : Ident) (p : Proc) : Prop := Defines t i n p ∧ p.ty ≠ 0

/-- What variables hold and procs return at run time. -/
structure World where
  /-- The type of `src`, if there is one. -/
  src : Option Nat
  /-- Values of local variables. -/
  locals : Ident → RVal → Prop
  /-- Values of global variables. -/
  globals : Ident → RVal → Prop
  /-- Values of a variable of an object of exactly this type. -/
  fields : Nat → Ident → RVal → Prop
  /-- What a definition returns when called like this. -/
  returns : Proc → Exprs → RVal → Prop

/-- The type of which a value has the variables and procs. -/
def RVal.type (t : Tree) : RVal → Option Nat
  | .obj i => some i
  | .list _ => some (t.expect "list")
  | _ => none

/-- The variables of procs. -/
def procFields : List Ident := ["type", "name", "desc", "category", "invisibility"]

/-- Reading variable `n` of a value. -/
inductive Reads (c : Ctx) (w : World) (n : Ident) : RVal → Out → Prop
  | null : Reads c w n .null .crash
  | field {r v : RVal} {i : Nat} : r.type c.tree = some i → HasField c.tree i n → w.fields i n v → Reads c w n r (.val v)
  | procField {v : RVal} : n ∈ procFields → Reads c w n .proc (.val v)
  | undefined {r : RVal} {i : Nat} : r.type c.tree = some i → ¬ HasField c.tree i n → Reads c w n r (.undefined n)
  | noProcField : n ∉ procFields → Reads c w n .proc (.undefined n)
  | noFields : Reads c w n .plain (.undefined n)

/-- Calling proc `n` of a value. -/
inductive Calls (c : Ctx) (w : World) (n : Ident) (args : Exprs) : RVal → Out → Prop
  | null : Calls c w n args .null .crash
  | method {r v : RVal} {i : Nat} {p : Proc} : r.type c.tree = some i → Runs c.tree i n p → w.returns p args v →
      Calls c w n args r (.val v)
  | undefined {r : RVal} {i : Nat} : r.type c.tree = some i → (∀ p, ¬ Runs c.tree i n p) →
      Calls c w n args r (.undefined n)
  | noProcs {r : RVal} : r ≠ .null → r.type c.tree = none → Calls c w n args r (.undefined n)

/-- A name on its own: a local variable, else `type`, else a variable of `src` if the type at hand has one of that name, else
a global variable. -/
inductive Reads1 (c : Ctx) (w : World) (n : Ident) : Out → Prop
  | local {v : RVal} : c.locals n ≠ none → w.locals n v → Reads1 c w n (.val v)
  | type : c.locals n = none → n = "type" → Reads1 c w n (.val .plain)
  | field {i : Nat} {v : RVal} : c.locals n = none → n ≠ "type" → HasField c.tree c.ty n → w.src = some i →
      HasField c.tree i n → w.fields i n v → Reads1 c w n (.val v)
  | global {v : RVal} {d : VarDecl} : c.locals n = none → n ≠ "type" → ¬ HasField c.tree c.ty n → c.tree.vars 0 n = some d →
      w.globals n v → Reads1 c w n (.val v)
  | undefined : c.locals n = none → n ≠ "type" → ¬ HasField c.tree c.ty n → c.tree.vars 0 n = none →
      Reads1 c w n (.undefined n)
  | undefinedField {i : Nat} : c.locals n = none → n ≠ "type" → HasField c.tree c.ty n → w.src = some i →
      ¬ HasField c.tree i n → Reads1 c w n (.undefined n)

/-- A call of a name: a proc of `src` if the type at hand has one of that name, else a global one. -/
inductive Calls1 (c : Ctx) (w : World) (n : Ident) (args : Exprs) : Out → Prop
  | method {i : Nat} {p q : Proc} {v : RVal} : Runs c.tree c.ty n q → w.src = some i → Runs c.tree i n p →
      w.returns p args v → Calls1 c w n args (.val v)
  | global {p : Proc} {v : RVal} : (∀ q, ¬ Runs c.tree c.ty n q) → Defines c.tree 0 n p → w.returns p args v →
      Calls1 c w n args (.val v)
  | undefined : (∀ q, ¬ Runs c.tree c.ty n q) → (∀ p, ¬ Defines c.tree 0 n p) → Calls1 c w n args (.undefined n)
  | undefinedMethod {i : Nat} {q : Proc} : Runs c.tree c.ty n q → w.src = some i → (∀ p, ¬ Runs c.tree i n p) →
      Calls1 c w n args (.undefined n)

/-- The value of `+`, `-`, `|`, `&`, `^` and compound assignments: of a list, a list with elements of both sides; of null,
the other side; else anything. -/
inductive Combines : RVal → RVal → RVal → Prop
  | list {es fs : List RVal} {r : RVal} :
      (∀ x ∈ fs, x ∈ es ∨ (∀ gs, r ≠ .list gs) ∧ x = r ∨ ∃ gs, r = .list gs ∧ x ∈ gs) → Combines (.list es) r (.list fs)
  | null {r : RVal} : Combines .null r r
  | other {v r z : RVal} : (∀ es, v ≠ .list es) → v ≠ .null → Combines v r z

/-- The arguments in a term. -/
def Term.args : Term → List Expr
  | .call _ es => es.toList
  | .selfCall es => es.toList
  | .parentCall es => es.toList
  | .globalCall _ es => es.toList
  | .newImplicit es => es.toList
  | .newPrefab _ es => es.toList
  | .list es => es.toList
  | .input es _ => es.toList
  | .locate es _ => es.toList
  | .dynCall es fs => es.toList ++ fs.toList
  | .extCall _ _ fs => fs.toList
  | _ => []

/-- The other expressions in a term, except for one in parentheses. -/
def Term.inner : Term → List Expr
  | .interp es => es.toList
  | .input _ fs => fs.toList
  | .locate _ fs => fs.toList
  | .pick es => es.toList
  | .extCall es f _ => f :: es.toList
  | _ => []

/-- What a term gives once the expressions in it have run. -/
inductive TermGives (c : Ctx) (w : World) : Term → Out → Prop
  | null : TermGives c w .null (.val .null)
  | int {n : Int} : TermGives c w (.int n) (.val .plain)
  | float : TermGives c w .float (.val .plain)
  | string {s : Ident} : TermGives c w (.string s) (.val .plain)
  | resource : TermGives c w .resource (.val .plain)
  | prefab {p : List (PathOp × Ident)} : TermGives c w (.prefab p) (.val .plain)
  | typeMacro : TermGives c w .typeMacro (.val .plain)
  | implied : TermGives c w .impliedType (.val .plain)
  | ident {n : Ident} {o : Out} : Reads1 c w n o → TermGives c w (.ident n) o
  | globalVar {n : Ident} {d : VarDecl} {v : RVal} : c.tree.vars 0 n = some d → w.globals n v →
      TermGives c w (.globalIdent n) (.val v)
  | noGlobalVar {n : Ident} : c.tree.vars 0 n = none → TermGives c w (.globalIdent n) (.undefined n)
  | call {n : Ident} {es : Exprs} {o : Out} : Calls1 c w n es o → TermGives c w (.call n es) o
  | selfCall {es : Exprs} {v : RVal} : w.returns c.proc es v → TermGives c w (.selfCall es) (.val v)
  | parentCall {es : Exprs} {p : Proc} {v : RVal} : ParentOf c.tree c.proc p → w.returns p es v →
      TermGives c w (.parentCall es) (.val v)
  | noParent {es : Exprs} : (∀ p, ¬ ParentOf c.tree c.proc p) → TermGives c w (.parentCall es) (.undefined "..")
  | globalCall {n : Ident} {es : Exprs} {p : Proc} {v : RVal} : Defines c.tree 0 n p → w.returns p es v →
      TermGives c w (.globalCall n es) (.val v)
  | noGlobalProc {n : Ident} {es : Exprs} : (∀ p, ¬ Defines c.tree 0 n p) → TermGives c w (.globalCall n es) (.undefined n)
  | list {es : Exprs} {vs : List RVal} : TermGives c w (.list es) (.val (.list vs))
  | other {t : Term} {o : Out} : Opaque t → (∀ n, o ≠ .undefined n) → TermGives c w t o

/-- What a follow makes of the value on its left once the expressions in it have run. -/
inductive FollowGives (c : Ctx) (w : World) : RVal → Follow → Out → Prop
  | unary {v : RVal} {op : UnaryOp} {o : Out} : (∀ n, o ≠ .undefined n) → FollowGives c w v (.unary op) o
  | elem {es : List RVal} {e : Expr} {x : RVal} : x ∈ es ∨ x = .null → FollowGives c w (.list es) (.index e) (.val x)
  | badIndex {v : RVal} {e : Expr} : FollowGives c w v (.index e) .crash
  | index {v x : RVal} {e : Expr} : (∀ es, v ≠ .list es) → v ≠ .null → FollowGives c w v (.index e) (.val x)
  | field {v : RVal} {k : Access} {n : Ident} {o : Out} : k.checked → ¬ (k = .safeDot ∧ v = .null) → Reads c w n v o →
      FollowGives c w v (.field k n) o
  | safeField {n : Ident} : FollowGives c w .null (.field .safeDot n) (.val .null)
  | uncheckedField {v : RVal} {k : Access} {n : Ident} {o : Out} : ¬ k.checked → (∀ n, o ≠ .undefined n) →
      FollowGives c w v (.field k n) o
  | call {v : RVal} {k : Access} {n : Ident} {es : Exprs} {o : Out} : k.checked → ¬ (k = .safeDot ∧ v = .null) →
      Calls c w n es v o → FollowGives c w v (.call k n es) o
  | safeCall {n : Ident} {es : Exprs} : FollowGives c w .null (.call .safeDot n es) (.val .null)
  | uncheckedCall {v : RVal} {k : Access} {n : Ident} {es : Exprs} {o : Out} : ¬ k.checked → (∀ n, o ≠ .undefined n) →
      FollowGives c w v (.call k n es) o
  | static {v : RVal} {f : Follow} {n : Ident} {o : Out} : f = .staticField n ∨ f = .procRef n → (∀ n, o ≠ .undefined n) →
      FollowGives c w v f o

mutual

/-- Running an expression may end like this. -/
inductive ExprRuns (c : Ctx) (w : World) : Expr → Out → Prop
  | base {l : Loc} {t : Term} {fs : Follows} {v : RVal} {o : Out} : TermRuns c w t (.val v) → FollowsRun c w v fs o →
      ExprRuns c w (.base l t fs) o
  | stop {l : Loc} {t : Term} {fs : Follows} {o : Out} : TermRuns c w t o → o.stops → ExprRuns c w (.base l t fs) o
  | left {op : BinaryOp} {x y : Expr} {o : Out} : ExprRuns c w x o → o.stops → ExprRuns c w (.binary op x y) o
  | right {op : BinaryOp} {x y : Expr} {o : Out} : ExprRuns c w y o → o.stops → ExprRuns c w (.binary op x y) o
  | combine {op : BinaryOp} {x y : Expr} {v r z : RVal} : ListOp op → ExprRuns c w x (.val v) → ExprRuns c w y (.val r) →
      Combines v r z → ExprRuns c w (.binary op x y) (.val z)
  | binary {op : BinaryOp} {x y : Expr} {z : RVal} : ¬ ListOp op → ExprRuns c w (.binary op x y) (.val z)
  | target {op : AssignOp} {x y : Expr} {o : Out} : ExprRuns c w x o → o.stops → ExprRuns c w (.assign op x y) o
  | value {op : AssignOp} {x y : Expr} {o : Out} : ExprRuns c w y o → o.stops → ExprRuns c w (.assign op x y) o
  | assign {x y : Expr} {r : RVal} : ExprRuns c w y (.val r) → ExprRuns c w (.assign .assign x y) (.val r)
  | compound {x y : Expr} {v r z : RVal} : ExprRuns c w x (.val v) → ExprRuns c w y (.val r) → Combines v r z →
      ExprRuns c w (.assign .compound x y) (.val z)
  | cond {k x y : Expr} {o : Out} : ExprRuns c w k o → o.stops → ExprRuns c w (.ternary k x y) o
  | yes {k x y : Expr} {o : Out} : ExprRuns c w x o → ExprRuns c w (.ternary k x y) o
  | no {k x y : Expr} {o : Out} : ExprRuns c w y o → ExprRuns c w (.ternary k x y) o

/-- The same for a term. -/
inductive TermRuns (c : Ctx) (w : World) : Term → Out → Prop
  | paren {e : Expr} {o : Out} : ExprRuns c w e o → TermRuns c w (.expr e) o
  | arg {t : Term} {e x : Expr} {o : Out} : e ∈ t.args → ArgValue e x → ExprRuns c w x o → o.stops → TermRuns c w t o
  | inner {t : Term} {e : Expr} {o : Out} : e ∈ t.inner → ExprRuns c w e o → o.stops → TermRuns c w t o
  | gives {t : Term} {o : Out} : TermGives c w t o → TermRuns c w t o

/-- The same for the follows of an expression, from the value on their left. -/
inductive FollowsRun (c : Ctx) (w : World) : RVal → Follows → Out → Prop
  | nil {v : RVal} : FollowsRun c w v .nil (.val v)
  | cons {v r : RVal} {l : Loc} {f : Follow} {fs : Follows} {o : Out} : FollowRuns c w v f (.val r) →
      FollowsRun c w r fs o → FollowsRun c w v (.cons l f fs) o
  | stop {v : RVal} {l : Loc} {f : Follow} {fs : Follows} {o : Out} : FollowRuns c w v f o → o.stops →
      FollowsRun c w v (.cons l f fs) o

/-- The same for one follow. -/
inductive FollowRuns (c : Ctx) (w : World) : RVal → Follow → Out → Prop
  | index {v : RVal} {e : Expr} {o : Out} : ExprRuns c w e o → o.stops → FollowRuns c w v (.index e) o
  | arg {v : RVal} {k : Access} {n : Ident} {es : Exprs} {e x : Expr} {o : Out} : e ∈ es.toList → ArgValue e x →
      ExprRuns c w x o → o.stops → FollowRuns c w v (.call k n es) o
  | gives {v : RVal} {f : Follow} {o : Out} : FollowGives c w v f o → FollowRuns c w v f o

end

/-! ## What the checker relies on -/

/-- Variables hold and procs return what their declarations say. -/
structure World.Honest (c : Ctx) (w : World) : Prop where
  src : ∀ i, w.src = some i → Sub c.tree i c.ty
  locals : ∀ n a v, c.locals n = some a → w.locals n v → Fits c.tree v a.st
  globals : ∀ n d r v, c.tree.vars 0 n = some d → PathType c.tree d.path r → w.globals n v → Fits c.tree v (r.getD .none)
  fields : ∀ i j n d r v, Sub c.tree i j → j ≠ 0 → c.tree.vars j n = some d → PathType c.tree d.path r → w.fields i n v →
    Fits c.tree v (r.getD .none)
  /-- An override returns what the overridden definition promises. -/
  returns : ∀ p p' args vs s v, p'.name = p.name → Sub c.tree p'.ty p.ty → ArgsAre c args vs → Gives c p args.toList vs s →
    w.returns p' args v → Fits c.tree v s

/-- The root is above everything, and nothing is below /list. -/
structure Coherent (t : Tree) : Prop where
  root : t.parent 0 = none
  list : ∀ i j, t.path i = ["list"] → Sub t j i → j = t.expect "list"

/-- The uses of a follow that the checker understands: not the indexing of what is not declared as a list, `::`, overloaded
`++` with a declared result, and names that belong to the root only. -/
inductive FollowFine (c : Ctx) (a : An) : Follow → Prop
  | unary {op : UnaryOp} : (∀ b, FollowIs c a (.unary op) b → b.st = .none) → FollowFine c a (.unary op)
  | index {e : Expr} : a.st = .none ∨ (∃ k, a.st = .list k) → FollowFine c a (.index e)
  | field {k : Access} {n : Ident} :
      (∀ i d, k.checked → Basic c.tree a.st i → Declares c.tree i n d → HasField c.tree i n) →
      (∀ i, Basic c.tree a.st i → ¬ (c.tree.path i = ["callee"] ∧ n = "proc")) → FollowFine c a (.field k n)
  | call {k : Access} {n : Ident} {es : Exprs} :
      (∀ i p, k.checked → Basic c.tree a.st i → Defines c.tree i n p → p.ty ≠ 0) → FollowFine c a (.call k n es)
  | static {f : Follow} {n : Ident} : f = .staticField n ∨ f = .procRef n → (∀ b, FollowIs c a f b → b.st = .none) →
      FollowFine c a f

/-- The same for terms: not the three names that are no procs, and no arguments for the `New` of a type without one. -/
def TermFine (c : Ctx) : Term → Prop
  | .call n _ => ∃ p, Defines c.tree c.ty n p
  | .newImplicit es => es = .nil ∨ ∀ i, c.tree.path i ∈ [["list"], ["alist"], ["vector"], ["pixloc"]] →
      ∃ p, Defines c.tree i "New" p
  | .newPrefab path es => es = .nil ∨ ∀ i, c.tree.nav c.ty path = some i →
      c.tree.path i ∈ [["list"], ["alist"], ["vector"], ["pixloc"]] → ∃ p, Defines c.tree i "New" p
  | _ => True

/-- The same for operators: lists are combined with lists of the same type, and both sides of `:` have the same type. -/
inductive Fine (c : Ctx) : Expr → Prop
  | base {l : Loc} {t : Term} {fs : Follows} : TermFine c t →
      (∀ h a l' b f, TermIs c h t a → Along c a fs l' b f → FollowFine c b f) → Fine c (.base l t fs)
  | binary {op : BinaryOp} {x y : Expr} : (∀ h a b, ListOp op → ExprIs c h x a → IsList c.tree a.st → ExprIs c h y b →
      b.st = a.st) → Fine c (.binary op x y)
  | assign {x y : Expr} : Fine c (.assign .assign x y)
  | compound {x y : Expr} : (∀ h h' a b, ExprIs c h x a → ExprIs c h' y b →
      b.st = .none ∨ IsList c.tree a.st ∧ b.st = a.st) → Fine c (.assign .compound x y)
  | ternary {k x y : Expr} : (∀ h a b, ExprIs c h x a → ExprIs c h y b → b.st = a.st) → Fine c (.ternary k x y)

/-- Directly inside an expression. -/
inductive Nested : Expr → Expr → Prop
  | paren {l : Loc} {e : Expr} {fs : Follows} : Nested e (.base l (.expr e) fs)
  | arg {l : Loc} {t : Term} {fs : Follows} {e x : Expr} : e ∈ t.args → ArgValue e x → Nested x (.base l t fs)
  | inner {l : Loc} {t : Term} {fs : Follows} {e : Expr} : e ∈ t.inner → Nested e (.base l t fs)
  | index {l l' : Loc} {t : Term} {fs : Follows} {e : Expr} : (l', .index e) ∈ fs.toList → Nested e (.base l t fs)
  | callArg {l l' : Loc} {t : Term} {fs : Follows} {k : Access} {n : Ident} {es : Exprs} {e x : Expr} :
      (l', .call k n es) ∈ fs.toList → e ∈ es.toList → ArgValue e x → Nested x (.base l t fs)
  | left {op : BinaryOp} {x y : Expr} : Nested x (.binary op x y)
  | right {op : BinaryOp} {x y : Expr} : Nested y (.binary op x y)
  | target {op : AssignOp} {x y : Expr} : Nested x (.assign op x y)
  | value {op : AssignOp} {x y : Expr} : Nested y (.assign op x y)
  | cond {k x y : Expr} : Nested k (.ternary k x y)
  | yes {k x y : Expr} : Nested x (.ternary k x y)
  | no {k x y : Expr} : Nested y (.ternary k x y)

/-- Anywhere inside an expression. -/
inductive Within : Expr → Expr → Prop
  | self {e : Expr} : Within e e
  | inner {e x y : Expr} : Within e x → Nested x y → Within e y

end Verif.Typing
