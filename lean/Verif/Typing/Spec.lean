import Verif.Typing.Model

/-!
# What DreamChecker's messages about expressions mean

A specification that does not use the visitor of `Verif.Typing.Model`.

* `Sub`, `Declares`, `Defines`, `PathType` say what a type inherits and what a declared type path stands for.
* `ExprIs` (with `TermIs`, `FollowIs`, …) are the typing rules: the static type and constant value of an expression.
* `At` says which terms, follows and operators inside an expression are looked at.
* `Due` lists, for every message and every other effect, when it is due at such a place.
-/

namespace Verif.Typing

/-- `j` is the type `i` or one of its ancestors. -/
inductive Sub (t : Tree) : Nat → Nat → Prop
  | refl (i : Nat) : Sub t i i
  | up {i p j : Nat} : t.parent i = some p → Sub t p j → Sub t i j

/-- The declaration of a variable that counts on type `i`: its own or else that of the nearest ancestor with one. -/
inductive Declares (t : Tree) : Nat → Ident → VarDecl → Prop
  | own {i : Nat} {n : Ident} {d : VarDecl} : t.vars i n = some d → Declares t i n d
  | inherited {i p : Nat} {n : Ident} {d : VarDecl} :
      t.vars i n = none → t.parent i = some p → Declares t p n d → Declares t i n d

/-- The definition of a proc that a call on type `i` runs: the latest on the type itself, or else what its parent runs. -/
inductive Defines (t : Tree) : Nat → Ident → Proc → Prop
  | own {i : Nat} {n : Ident} {k : Nat} : (t.procs i n).length = k + 1 → Defines t i n ⟨i, n, k⟩
  | inherited {i p : Nat} {n : Ident} {q : Proc} :
      t.procs i n = [] → t.parent i = some p → Defines t p n q → Defines t i n q

/-- The definition that `..()` runs: the one before it on the same type, or else what the parent type runs. -/
inductive ParentOf (t : Tree) : Proc → Proc → Prop
  | earlier {i : Nat} {n : Ident} {k : Nat} : ParentOf t ⟨i, n, k + 1⟩ ⟨i, n, k⟩
  | inherited {i p : Nat} {n : Ident} {q : Proc} : t.parent i = some p → Defines t p n q → ParentOf t ⟨i, n, 0⟩ q

/-- What the type path of a declaration stands for: words like `static` do not count, `list/..` is a list of what follows,
anything else is the type of that path, or `none` if there is no such type. -/
inductive PathType (t : Tree) : List Ident → Option STy → Prop
  | nothing : PathType t [] (some .none)
  | modifier {x : Ident} {rest : List Ident} {r : Option STy} :
      x ∈ modifiers → PathType t rest r → PathType t (x :: rest) r
  | list {rest : List Ident} {k : STy} : PathType t rest (some k) → PathType t ("list" :: rest) (some (.list k))
  | listMissing {rest : List Ident} : PathType t rest none → PathType t ("list" :: rest) none
  | type {x : Ident} {rest : List Ident} {i : Nat} :
      x ∉ modifiers → x ≠ "list" → t.find (x :: rest) = some i → PathType t (x :: rest) (some (.type i))
  | missing {x : Ident} {rest : List Ident} :
      x ∉ modifiers → x ≠ "list" → t.find (x :: rest) = none → PathType t (x :: rest) none

/-- The part of a declared path that names a type that does not exist. -/
inductive Missing (t : Tree) : List Ident → List Ident → Prop
  | modifier {x : Ident} {rest p : List Ident} : x ∈ modifiers → Missing t rest p → Missing t (x :: rest) p
  | list {rest p : List Ident} : Missing t rest p → Missing t ("list" :: rest) p
  | here {x : Ident} {rest : List Ident} :
      x ∉ modifiers → x ≠ "list" → t.find (x :: rest) = none → Missing t (x :: rest) (x :: rest)

/-- The type whose fields and procs a value of this static type has. -/
inductive Basic (t : Tree) : STy → Nat → Prop
  | type (i : Nat) : Basic t (.type i) i
  | list (k : STy) : Basic t (.list k) (t.expect "list")

/-- The type hint that the left side of an assignment gives to the right side. -/
inductive HintOf (t : Tree) (s : STy) : Option Nat → Prop
  | some {i : Nat} : Basic t s i → HintOf t s (some i)
  | none : (∀ i, ¬ Basic t s i) → HintOf t s none

/-- The operators that give a list when their left side is one. -/
def ListOp (op : BinaryOp) : Prop := op = .add ∨ op = .sub ∨ op = .bitOr ∨ op = .bitAnd ∨ op = .bitXor

/-- A static type that is certainly a list. -/
inductive IsList (t : Tree) : STy → Prop
  | list (k : STy) : IsList t (.list k)
  | type {i : Nat} : t.path i = ["list"] → IsList t (.type i)

/-- `a.b` and `a?.b`, and the `::`-like form the parser never makes; not `a:b` or `a?:b`. -/
def Access.checked (k : Access) : Prop := k ≠ .colon ∧ k ≠ .safeColon

/-- The value of the last argument with the given name, and that argument. -/
def Named (es : List Expr) (vs : List An) (n : Ident) (a : An) (e : Expr) : Prop :=
  ∃ pre post, es.zip vs = pre ++ (e, a) :: post ∧ e.kwarg = some n ∧ ∀ x ∈ post, x.1.kwarg ≠ some n

/-- There is no argument with the given name. -/
def Unnamed (es : List Expr) (n : Ident) : Prop := ∀ e ∈ es, e.kwarg ≠ some n

/-- `a` is the value of the `i`-th argument without a name. -/
inductive Positional : List Expr → List An → Nat → An → Prop
  | first {e : Expr} {es : List Expr} {a : An} {vs : List An} : e.kwarg = none → Positional (e :: es) (a :: vs) 0 a
  | skip {e : Expr} {es : List Expr} {a b : An} {vs : List An} {i : Nat} :
      e.kwarg ≠ none → Positional es vs i a → Positional (e :: es) (b :: vs) i a
  | next {e : Expr} {es : List Expr} {a b : An} {vs : List An} {i : Nat} :
      e.kwarg = none → Positional es vs i a → Positional (e :: es) (b :: vs) (i + 1) a

/-- The argument given for a parameter: by name, or else by position. -/
inductive Given (es : List Expr) (vs : List An) (n : Ident) (i : Nat) : Option An → Prop
  | named {a : An} {e : Expr} : Named es vs n a e → Given es vs n i (some a)
  | positional {a : An} : Unnamed es n → Positional es vs i a → Given es vs n i (some a)
  | missing : Unnamed es n → (∀ a, ¬ Positional es vs i a) → Given es vs n i none

/-- What is left of a type after taking elements `k` times. -/
inductive Element : STy → Nat → STy → Prop
  | zero {s : STy} : Element s 0 s
  | list {s r : STy} {k : Nat} : Element s k r → Element (.list s) (k + 1) r
  | other {s r : STy} {k : Nat} : (∀ e, s ≠ .list e) → Element .none k r → Element s (k + 1) r

/-- What a return type annotation stands for in a call: `given` tells the arguments.  `none` if it names a type that does not
exist. -/
inductive Means (t : Tree) (given : Ident → Nat → Option An → Prop) : TExpr → Option STy → Prop
  | static (s : STy) : Means t given (.static s) (some s)
  | yes {c a b : TExpr} {s : STy} {r : Option STy} :
      Means t given c (some s) → s ≠ .none → Means t given a r → Means t given (.cond c a b) r
  | no {c a b : TExpr} {r : Option STy} :
      Means t given c (some .none) → Means t given b r → Means t given (.cond c a b) r
  | bad {c a b : TExpr} : Means t given c none → Means t given (.cond c a b) none
  | path {n : Ident} {i k : Nat} {a : An} {p : List Ident} {r : Option STy} :
      given n i (some a) → a.value = some (.prefab p) → PathType t p r → Means t given (.paramPath n i k) r
  | noPath {n : Ident} {i k : Nat} {a : An} :
      given n i (some a) → (∀ p, a.value ≠ some (.prefab p)) → Means t given (.paramPath n i k) (some .none)
  | noArg {n : Ident} {i k : Nat} : given n i none → Means t given (.paramPath n i k) (some .none)
  | typeOf {n : Ident} {i k : Nat} {a : An} {s : STy} :
      given n i (some a) → Element a.st k s → Means t given (.paramStatic n i k) (some s)
  | typeOfNone {n : Ident} {i k : Nat} : given n i none → Means t given (.paramStatic n i k) (some .none)

/-- A return type annotation that names a type that does not exist, and the path of that type. -/
inductive MeansMissing (t : Tree) (given : Ident → Nat → Option An → Prop) : TExpr → List Ident → Prop
  | cond {c a b : TExpr} {p : List Ident} : MeansMissing t given c p → MeansMissing t given (.cond c a b) p
  | yes {c a b : TExpr} {s : STy} {p : List Ident} :
      Means t given c (some s) → s ≠ .none → MeansMissing t given a p → MeansMissing t given (.cond c a b) p
  | no {c a b : TExpr} {p : List Ident} :
      Means t given c (some .none) → MeansMissing t given b p → MeansMissing t given (.cond c a b) p
  | path {n : Ident} {i k : Nat} {a : An} {q p : List Ident} :
      given n i (some a) → a.value = some (.prefab q) → Missing t q p → MeansMissing t given (.paramPath n i k) p

/-- A call of the global `astype` with a first argument. -/
def Casts (p : Proc) (es : List Expr) (vs : List An) : Prop :=
  p.ty = 0 ∧ p.name = "astype" ∧ ∃ a, Positional es vs 0 a

/-- A call of the global `filter` of which something essential is wrong. -/
inductive BadFilter (es : List Expr) (vs : List An) : Prop
  | noType : Unnamed es "type" → BadFilter es vs
  | badType {a : An} {e : Expr} : Named es vs "type" a e → (∀ s, a.value ≠ some (.str s)) → BadFilter es vs
  | unknown {a : An} {e : Expr} {s : Ident} :
      Named es vs "type" a e → a.value = some (.str s) → filterTypes.lookup s = none → BadFilter es vs

/-- The static type of a call. -/
inductive Gives (c : Ctx) (p : Proc) (es : List Expr) (vs : List An) : STy → Prop
  | castPath {a : An} {b : An} {path : List Ident} {i : Nat} : p.ty = 0 → p.name = "astype" →
      Positional es vs 0 a → Positional es vs 1 b → b.value = some (.prefab path) → c.tree.find path = some i →
      Gives c p es vs (.type i)
  | castSame {a : An} : p.ty = 0 → p.name = "astype" → Positional es vs 0 a →
      (∀ b path i, Positional es vs 1 b → b.value = some (.prefab path) → c.tree.find path ≠ some i) → Gives c p es vs a.st
  | filter : p.ty = 0 → p.name = "filter" → BadFilter es vs → Gives c p es vs .none
  | builtin : ¬ Casts p es vs → ¬ (p.ty = 0 ∧ p.name = "filter" ∧ BadFilter es vs) → p.ty = 0 →
      (c.tree.info p).builtin = true → Gives c p es vs (builtinReturn c.tree p.name)
  | annotated {t : TExpr} {r : Option STy} : ¬ Casts p es vs → ¬ (p.ty = 0 ∧ p.name = "filter" ∧ BadFilter es vs) →
      ¬ (p.ty = 0 ∧ (c.tree.info p).builtin = true) → c.returns p = some t →
      Means c.tree (Given es vs) t r → Gives c p es vs (r.getD .none)
  | unknown : ¬ Casts p es vs → ¬ (p.ty = 0 ∧ p.name = "filter" ∧ BadFilter es vs) →
      ¬ (p.ty = 0 ∧ (c.tree.info p).builtin = true) → c.returns p = none → Gives c p es vs .none

/-- The type on the left of `::`: the static type if there is one, else the type of a constant path. -/
inductive Scope (c : Ctx) (a : An) : Nat → Prop
  | static {i : Nat} : Basic c.tree a.st i → Scope c a i
  | path {p : List Ident} {i : Nat} :
      (∀ j, ¬ Basic c.tree a.st j) → a.value = some (.prefab p) → c.tree.find p = some i → Scope c a i

/-- Terms about which nothing is known. -/
inductive Opaque : Term → Prop
  | as : Opaque .as
  | interp (es : Exprs) : Opaque (.interp es)
  | newImplicit (es : Exprs) : Opaque (.newImplicit es)
  | newPrefab (p : List (PathOp × Ident)) (es : Exprs) : Opaque (.newPrefab p es)
  | newMini : Opaque .newMini
  | input (es fs : Exprs) : Opaque (.input es fs)
  | locate (es fs : Exprs) : Opaque (.locate es fs)
  | pick (es : Exprs) : Opaque (.pick es)
  | dynCall (es fs : Exprs) : Opaque (.dynCall es fs)
  | extCall (l : Exprs) (f : Expr) (es : Exprs) : Opaque (.extCall l f es)
  | procMacro : Opaque .procMacro

/-- The value visited for an argument: of a keyword argument, its right side. -/
inductive ArgValue : Expr → Expr → Prop
  | plain {e : Expr} : e.kwarg = none → ArgValue e e
  | keyword {l r : Expr} {n : Ident} : (Expr.assign .assign l r).kwarg = some n → ArgValue (.assign .assign l r) r

mutual

/-- The static type and constant value of an expression, `hint` being the type that is assigned to. -/
inductive ExprIs (c : Ctx) : Option Nat → Expr → An → Prop
  | term {hint : Option Nat} {l : Loc} {t : Term} {a : An} : TermIs c hint t a → ExprIs c hint (.base l t .nil) a
  | follows {hint : Option Nat} {l l' : Loc} {t : Term} {f : Follow} {fs : Follows} {a b : An} :
      TermIs c none t a → FollowsIs c a (.cons l' f fs) b → ExprIs c hint (.base l t (.cons l' f fs)) b
  | listOp {hint : Option Nat} {op : BinaryOp} {x y : Expr} {a : An} :
      ListOp op → ExprIs c none x a → IsList c.tree a.st → ExprIs c hint (.binary op x y) { st := a.st }
  | notList {hint : Option Nat} {op : BinaryOp} {x y : Expr} {a : An} :
      ListOp op → ExprIs c none x a → ¬ IsList c.tree a.st → ExprIs c hint (.binary op x y) {}
  | binary {hint : Option Nat} {op : BinaryOp} {x y : Expr} : ¬ ListOp op → ExprIs c hint (.binary op x y) {}
  | assign {hint h : Option Nat} {op : AssignOp} {x y : Expr} {a b : An} :
      ExprIs c none x a → HintOf c.tree a.st h → ExprIs c h y b → ExprIs c hint (.assign op x y) b
  | ternary {hint : Option Nat} {k x y : Expr} {a : An} : ExprIs c hint x a → ExprIs c hint (.ternary k x y) a

/-- The same for a term. -/
inductive TermIs (c : Ctx) : Option Nat → Term → An → Prop
  | null {h : Option Nat} : TermIs c h .null { value := some .null }
  | int {h : Option Nat} {n : Int} : TermIs c h (.int n) { value := some .num }
  | float {h : Option Nat} : TermIs c h .float { value := some .num }
  | string {h : Option Nat} {s : Ident} : TermIs c h (.string s) { value := some (.str s) }
  | resource {h : Option Nat} : TermIs c h .resource { value := some .res }
  | local {h : Option Nat} {n : Ident} {a : An} : c.locals n = some a → TermIs c h (.ident n) a
  | typeVar {h : Option Nat} : c.locals "type" = none →
      TermIs c h (.ident "type") { value := some (.prefab (c.tree.path c.ty)) }
  | var {h : Option Nat} {n : Ident} {d : VarDecl} {r : Option STy} : c.locals n = none → n ≠ "type" →
      Declares c.tree c.ty n d → PathType c.tree d.path r → TermIs c h (.ident n) { st := r.getD .none, impure := true }
  | noVar {h : Option Nat} {n : Ident} : c.locals n = none → n ≠ "type" → (∀ d, ¬ Declares c.tree c.ty n d) →
      TermIs c h (.ident n) {}
  | globalVar {h : Option Nat} {n : Ident} {d : VarDecl} {r : Option STy} :
      Declares c.tree 0 n d → PathType c.tree d.path r → TermIs c h (.globalIdent n) { st := r.getD .none, impure := true }
  | noGlobal {h : Option Nat} {n : Ident} : (∀ d, ¬ Declares c.tree 0 n d) → TermIs c h (.globalIdent n) {}
  | paren {h : Option Nat} {e : Expr} {a : An} : ExprIs c h e a → TermIs c h (.expr e) a
  | prefab {h : Option Nat} {p : List (PathOp × Ident)} {i : Nat} : c.tree.nav c.ty p = some i →
      TermIs c h (.prefab p) { value := some (.prefab (c.tree.path i)) }
  | badPrefab {h : Option Nat} {p : List (PathOp × Ident)} : c.tree.nav c.ty p = none → TermIs c h (.prefab p) {}
  | call {h : Option Nat} {n : Ident} {args : Exprs} {p : Proc} {vs : List An} {s : STy} : Defines c.tree c.ty n p →
      ArgsAre c args vs → Gives c p args.toList vs s → TermIs c h (.call n args) { st := s }
  | ownName {h : Option Nat} {args : Exprs} {vs : List An} {s : STy} : (∀ p, ¬ Defines c.tree c.ty "__PROC__" p) →
      ArgsAre c args vs → Gives c c.proc args.toList vs s → TermIs c h (.call "__PROC__" args) { st := s }
  | noProc {h : Option Nat} {n : Ident} {args : Exprs} : (∀ p, ¬ Defines c.tree c.ty n p) → n ≠ "__PROC__" →
      TermIs c h (.call n args) {}
  | selfCall {h : Option Nat} {args : Exprs} {vs : List An} {s : STy} :
      ArgsAre c args vs → Gives c c.proc args.toList vs s → TermIs c h (.selfCall args) { st := s }
  | parentCall {h : Option Nat} {args : Exprs} {p : Proc} {vs : List An} {s : STy} : ParentOf c.tree c.proc p →
      ArgsAre c args vs → Gives c p args.toList vs s → TermIs c h (.parentCall args) { st := s }
  | noParent {h : Option Nat} {args : Exprs} : (∀ p, ¬ ParentOf c.tree c.proc p) → TermIs c h (.parentCall args) {}
  | globalCall {h : Option Nat} {n : Ident} {args : Exprs} {p : Proc} {vs : List An} {s : STy} : Defines c.tree 0 n p →
      ArgsAre c args vs → Gives c p args.toList vs s → TermIs c h (.globalCall n args) { st := s }
  | noGlobalProc {h : Option Nat} {n : Ident} {args : Exprs} : (∀ p, ¬ Defines c.tree 0 n p) →
      TermIs c h (.globalCall n args) {}
  | opaque {h : Option Nat} {t : Term} : Opaque t → TermIs c h t {}
  | list {h : Option Nat} {args : Exprs} : TermIs c h (.list args) { st := .type (c.tree.expect "list") }
  | typeMacro {h : Option Nat} : TermIs c h .typeMacro { value := some (.prefab (c.tree.path c.ty)) }
  | implied {i : Nat} : TermIs c (some i) .impliedType { value := some (.prefab (c.tree.path c.ty)) }
  | impliedNone : TermIs c none .impliedType {}

/-- The same along the follows of an expression, from what is on their left. -/
inductive FollowsIs (c : Ctx) : An → Follows → An → Prop
  | nil {a : An} : FollowsIs c a .nil a
  | cons {a b d : An} {l : Loc} {f : Follow} {fs : Follows} :
      FollowIs c a f b → FollowsIs c b fs d → FollowsIs c a (.cons l f fs) d

/-- The same for one follow. -/
inductive FollowIs (c : Ctx) : An → Follow → An → Prop
  | overload {a : An} {i : Nat} {op : UnaryOp} {n : Ident} {p : Proc} {s : STy} : a.st = .type i →
      (op = .preIncr ∨ op = .postIncr) ∧ n = "operator++" ∨ (op = .preDecr ∨ op = .postDecr) ∧ n = "operator--" →
      Defines c.tree i n p → Gives c p [] [] s → FollowIs c a (.unary op) { st := s }
  | noOverload {a : An} {op : UnaryOp} :
      (∀ i n p, a.st = .type i → ((op = .preIncr ∨ op = .postIncr) ∧ n = "operator++" ∨
        (op = .preDecr ∨ op = .postDecr) ∧ n = "operator--") → ¬ Defines c.tree i n p) → FollowIs c a (.unary op) {}
  | elem {a : An} {k : STy} {e : Expr} : a.st = .list k → FollowIs c a (.index e) { st := k }
  | index {a : An} {e : Expr} : (∀ k, a.st ≠ .list k) → FollowIs c a (.index e) a
  | unchecked {a : An} {k : Access} {n : Ident} : ¬ k.checked → FollowIs c a (.field k n) {}
  | callee {a : An} {k : Access} {i : Nat} : k.checked → Basic c.tree a.st i → c.tree.path i = ["callee"] →
      FollowIs c a (.field k "proc") { st := .proc }
  | field {a : An} {k : Access} {n : Ident} {i : Nat} {d : VarDecl} {r : Option STy} : k.checked →
      Basic c.tree a.st i → ¬ (c.tree.path i = ["callee"] ∧ n = "proc") → Declares c.tree i n d →
      PathType c.tree d.path r → FollowIs c a (.field k n) { st := r.getD .none }
  | noField {a : An} {k : Access} {n : Ident} {i : Nat} : k.checked →
      Basic c.tree a.st i → ¬ (c.tree.path i = ["callee"] ∧ n = "proc") → (∀ d, ¬ Declares c.tree i n d) →
      FollowIs c a (.field k n) {}
  | untyped {a : An} {k : Access} {n : Ident} : k.checked → (∀ i, ¬ Basic c.tree a.st i) → FollowIs c a (.field k n) {}
  | uncheckedCall {a : An} {k : Access} {n : Ident} {args : Exprs} : ¬ k.checked → FollowIs c a (.call k n args) {}
  | method {a : An} {k : Access} {n : Ident} {args : Exprs} {i : Nat} {p : Proc} {vs : List An} {s : STy} : k.checked →
      Basic c.tree a.st i → Defines c.tree i n p → (∀ q, c.privateBy p = some q → q.ty = i) → ArgsAre c args vs →
      Gives c p args.toList vs s → FollowIs c a (.call k n args) { st := s }
  | privateMethod {a : An} {k : Access} {n : Ident} {args : Exprs} {i : Nat} {p q : Proc} : k.checked →
      Basic c.tree a.st i → Defines c.tree i n p → c.privateBy p = some q → q.ty ≠ i → FollowIs c a (.call k n args) {}
  | noMethod {a : An} {k : Access} {n : Ident} {args : Exprs} : k.checked →
      (∀ i p, Basic c.tree a.st i → ¬ Defines c.tree i n p) → FollowIs c a (.call k n args) {}
  | scoped {a : An} {n : Ident} {i : Nat} {d : VarDecl} {r : Option STy} : Scope c a i → Declares c.tree i n d →
      PathType c.tree d.path r → FollowIs c a (.staticField n) { st := r.getD .none }
  | noScoped {a : An} {n : Ident} : (∀ i d, Scope c a i → ¬ Declares c.tree i n d) → FollowIs c a (.staticField n) {}
  | procRef {a : An} {n : Ident} {i : Nat} {p : Proc} : Scope c a i → Defines c.tree i n p →
      FollowIs c a (.procRef n)
        { value := some (.prefab (c.tree.path i ++ (c.tree.declKind p.ty p.name).toList ++ [n])) }
  | noProcRef {a : An} {n : Ident} : (∀ i p, Scope c a i → ¬ Defines c.tree i n p) → FollowIs c a (.procRef n) {}

/-- The same for arguments. -/
inductive ArgsAre (c : Ctx) : Exprs → List An → Prop
  | nil : ArgsAre c .nil []
  | cons {e v : Expr} {es : Exprs} {a : An} {vs : List An} :
      ArgValue e v → ExprIs c none v a → ArgsAre c es vs → ArgsAre c (.cons e es) (a :: vs)

end

/-- A place inside an expression: a term, a follow with what is known about its left side, or an operator. -/
inductive Site
  | term (l : Loc) (hint : Option Nat) (t : Term)
  | follow (l : Loc) (a : An) (f : Follow)
  | node (l : Loc) (e : Expr)

/-- The site makes a call: of definition `p`, on type `src`, with these arguments.  `exact`: no override can be meant;
`inherit`: the callee runs on the same object. -/
inductive Makes (c : Ctx) : Site → (src : Nat) → (p : Proc) → (exact inherit : Bool) → Exprs → Prop
  | call {l : Loc} {h : Option Nat} {n : Ident} {args : Exprs} {p : Proc} : Defines c.tree c.ty n p →
      Makes c (.term l h (.call n args)) c.ty p false true args
  | ownName {l : Loc} {h : Option Nat} {args : Exprs} : (∀ p, ¬ Defines c.tree c.ty "__PROC__" p) →
      Makes c (.term l h (.call "__PROC__" args)) c.ty c.proc false true args
  | self {l : Loc} {h : Option Nat} {args : Exprs} : Makes c (.term l h (.selfCall args)) c.ty c.proc true true args
  | parent {l : Loc} {h : Option Nat} {args : Exprs} {p : Proc} : ParentOf c.tree c.proc p →
      Makes c (.term l h (.parentCall args)) c.ty p true true args
  | global {l : Loc} {h : Option Nat} {n : Ident} {args : Exprs} {p : Proc} : Defines c.tree 0 n p →
      Makes c (.term l h (.globalCall n args)) 0 p true false args
  | newImplicit {l : Loc} {i : Nat} {args : Exprs} {p : Proc} : Defines c.tree i "New" p →
      Makes c (.term l (some i) (.newImplicit args)) i p true false args
  | newPrefab {l : Loc} {h : Option Nat} {path : List (PathOp × Ident)} {i : Nat} {args : Exprs} {p : Proc} :
      c.tree.nav c.ty path = some i → Defines c.tree i "New" p →
      Makes c (.term l h (.newPrefab path args)) i p true false args
  | method {l : Loc} {a : An} {k : Access} {n : Ident} {args : Exprs} {i : Nat} {p : Proc} : k.checked →
      Basic c.tree a.st i → Defines c.tree i n p → (∀ q, c.privateBy p = some q → q.ty = i) →
      Makes c (.follow l a (.call k n args)) i p false false args
  | incr {l : Loc} {a : An} {i : Nat} {op : UnaryOp} {p : Proc} : a.st = .type i → op = .preIncr ∨ op = .postIncr →
      Defines c.tree i "operator++" p → Makes c (.follow l a (.unary op)) i p true false .nil
  | decr {l : Loc} {a : An} {i : Nat} {op : UnaryOp} {p : Proc} : a.st = .type i → op = .preDecr ∨ op = .postDecr →
      Defines c.tree i "operator--" p → Makes c (.follow l a (.unary op)) i p true false .nil

/-- The expressions directly inside a site that are looked at, and the type hint for them.  What is missing here is not
looked at: the arguments of a call whose callee is not found or is `SpacemanDMM_unlint`, and the inside of `new foo.bar()`. -/
inductive Opens (c : Ctx) : Site → Option Nat → Expr → Prop
  | arg {s : Site} {src : Nat} {p : Proc} {ex inh : Bool} {args : Exprs} {e v : Expr} :
      Makes c s src p ex inh args → e ∈ args.toList → ArgValue e v → Opens c s none v
  | paren {l : Loc} {h : Option Nat} {e : Expr} : Opens c (.term l h (.expr e)) h e
  | interp {l : Loc} {h : Option Nat} {es : Exprs} {e : Expr} : e ∈ es.toList → Opens c (.term l h (.interp es)) none e
  | debug {l : Loc} {h : Option Nat} {es : Exprs} {e : Expr} : (∀ p, ¬ Defines c.tree c.ty "SpacemanDMM_debug" p) →
      e ∈ es.toList → Opens c (.term l h (.call "SpacemanDMM_debug" es)) none e
  | list {l : Loc} {h : Option Nat} {es : Exprs} {e v : Expr} : e ∈ es.toList → ArgValue e v →
      Opens c (.term l h (.list es)) none v
  | input {l : Loc} {h : Option Nat} {es fs : Exprs} {e v : Expr} : e ∈ es.toList → ArgValue e v →
      Opens c (.term l h (.input es fs)) none v
  | inputIn {l : Loc} {h : Option Nat} {es fs : Exprs} {e : Expr} : e ∈ fs.toList →
      Opens c (.term l h (.input es fs)) none e
  | locate {l : Loc} {h : Option Nat} {es fs : Exprs} {e v : Expr} : e ∈ es.toList → ArgValue e v →
      Opens c (.term l h (.locate es fs)) none v
  | locateIn {l : Loc} {h : Option Nat} {es fs : Exprs} {e : Expr} : e ∈ fs.toList →
      Opens c (.term l h (.locate es fs)) none e
  | pick {l : Loc} {h : Option Nat} {es : Exprs} {e : Expr} : e ∈ es.toList → Opens c (.term l h (.pick es)) none e
  | dynLhs {l : Loc} {h : Option Nat} {es fs : Exprs} {e v : Expr} : e ∈ es.toList → ArgValue e v →
      Opens c (.term l h (.dynCall es fs)) none v
  | dynRhs {l : Loc} {h : Option Nat} {es fs : Exprs} {e v : Expr} : e ∈ fs.toList → ArgValue e v →
      Opens c (.term l h (.dynCall es fs)) none v
  | extLib {l : Loc} {h : Option Nat} {es fs : Exprs} {f e : Expr} : e ∈ es.toList →
      Opens c (.term l h (.extCall es f fs)) none e
  | extFn {l : Loc} {h : Option Nat} {es fs : Exprs} {f : Expr} : Opens c (.term l h (.extCall es f fs)) none f
  | extArg {l : Loc} {h : Option Nat} {es fs : Exprs} {f e v : Expr} : e ∈ fs.toList → ArgValue e v →
      Opens c (.term l h (.extCall es f fs)) none v
  | index {l : Loc} {a : An} {e : Expr} : Opens c (.follow l a (.index e)) none e
  | uncheckedArg {l : Loc} {a : An} {k : Access} {n : Ident} {es : Exprs} {e v : Expr} : ¬ k.checked → e ∈ es.toList →
      ArgValue e v → Opens c (.follow l a (.call k n es)) none v

/-- A follow of a chain of follows, with its place and what is known about its left side. -/
inductive Along (c : Ctx) : An → Follows → Loc → An → Follow → Prop
  | head {a : An} {l : Loc} {f : Follow} {fs : Follows} : Along c a (.cons l f fs) l a f
  | tail {a b d : An} {l l' : Loc} {f g : Follow} {fs : Follows} :
      FollowIs c a f b → Along c b fs l' d g → Along c a (.cons l f fs) l' d g

/-- The place a site reports at. -/
def Site.loc : Site → Loc
  | .term l _ _ => l
  | .follow l _ _ => l
  | .node l _ => l

/-- The type hint of a term: that of the expression if nothing follows the term. -/
def termHint (hint : Option Nat) : Follows → Option Nat
  | .nil => hint
  | .cons _ _ _ => none

/-- The sites that are looked at when the expression is visited at place `l`. -/
inductive At (c : Ctx) : Loc → Option Nat → Expr → Site → Prop
  | term {l tl : Loc} {h : Option Nat} {t : Term} {fs : Follows} : At c l h (.base tl t fs) (.term tl (termHint h fs) t)
  | follow {l tl l' : Loc} {h : Option Nat} {t : Term} {fs : Follows} {a b : An} {f : Follow} :
      TermIs c (termHint h fs) t a → Along c a fs l' b f → At c l h (.base tl t fs) (.follow l' b f)
  | inTerm {l tl : Loc} {h k : Option Nat} {t : Term} {fs : Follows} {e : Expr} {s : Site} :
      Opens c (.term tl (termHint h fs) t) k e → At c tl k e s → At c l h (.base tl t fs) s
  | inFollow {l tl l' : Loc} {h k : Option Nat} {t : Term} {fs : Follows} {a b : An} {f : Follow} {e : Expr} {s : Site} :
      TermIs c (termHint h fs) t a → Along c a fs l' b f → Opens c (.follow l' b f) k e → At c l' k e s →
      At c l h (.base tl t fs) s
  | binary {l : Loc} {h : Option Nat} {op : BinaryOp} {x y : Expr} : At c l h (.binary op x y) (.node l (.binary op x y))
  | assign {l : Loc} {h : Option Nat} {op : AssignOp} {x y : Expr} : At c l h (.assign op x y) (.node l (.assign op x y))
  | orLeft {l : Loc} {h : Option Nat} {x y : Expr} {s : Site} : At c l h x s → At c l h (.binary .or x y) s
  | orRight {l : Loc} {h : Option Nat} {x y : Expr} {s : Site} : At c l h y s → At c l h (.binary .or x y) s
  | left {l : Loc} {h : Option Nat} {op : BinaryOp} {x y : Expr} {s : Site} :
      op ≠ .or → At c l none x s → At c l h (.binary op x y) s
  | right {l : Loc} {h : Option Nat} {op : BinaryOp} {x y : Expr} {s : Site} :
      op ≠ .or → At c l none y s → At c l h (.binary op x y) s
  | target {l : Loc} {h : Option Nat} {op : AssignOp} {x y : Expr} {s : Site} :
      At c l none x s → At c l h (.assign op x y) s
  | value {l : Loc} {h k : Option Nat} {op : AssignOp} {x y : Expr} {a : An} {s : Site} :
      ExprIs c none x a → HintOf c.tree a.st k → At c l k y s → At c l h (.assign op x y) s
  | cond {l : Loc} {h : Option Nat} {k x y : Expr} {s : Site} : At c l none k s → At c l h (.ternary k x y) s
  | yes {l : Loc} {h : Option Nat} {k x y : Expr} {s : Site} : At c l h x s → At c l h (.ternary k x y) s
  | no {l : Loc} {h : Option Nat} {k x y : Expr} {s : Site} : At c l h y s → At c l h (.ternary k x y) s

/-- A flag argument of `filter()`: what is wrong with it. -/
inductive BadFlag (s : Ident) (r : FlagRule) : Expr → Msg → Prop
  | exclusive {a b : Expr} : r.exclusive = true → BadFlag s r (.binary .bitOr a b) (.filterExclusive s)
  | left {a b : Expr} {m : Msg} : r.exclusive = false → BadFlag s r a m → BadFlag s r (.binary .bitOr a b) m
  | right {a b : Expr} {m : Msg} : r.exclusive = false → BadFlag s r b m → BadFlag s r (.binary .bitOr a b) m
  | follow {l l' : Loc} {t : Term} {f : Follow} {fs : Follows} : BadFlag s r (.base l t (.cons l' f fs)) .filterFollow
  | name {l : Loc} {n : Ident} : n ∉ r.flags → BadFlag s r (.base l (.ident n) .nil) (.filterBadFlag s n)
  | value {l : Loc} {t : Term} : (∀ n, t ≠ .ident n) → (t = .int 0 → r.canBeZero = false) →
      BadFlag s r (.base l t .nil) (.filterBadValue s)
  | operator {op : BinaryOp} {a b : Expr} : op ≠ .bitOr → BadFlag s r (.binary op a b) (.filterWrong s)
  | assign {op : AssignOp} {a b : Expr} : BadFlag s r (.assign op a b) (.filterWrong s)
  | ternary {k a b : Expr} : BadFlag s r (.ternary k a b) (.filterWrong s)

/-- What is wrong with a call of `filter()`. -/
inductive FilterDue (es : List Expr) (vs : List An) : Msg → Prop
  | noType : Unnamed es "type" → usesArglist es = false → FilterDue es vs .filterNoType
  | badType {a : An} {e : Expr} : Named es vs "type" a e → (∀ s, a.value ≠ some (.str s)) → FilterDue es vs .filterBadType
  | unknown {a : An} {e : Expr} {s : Ident} : Named es vs "type" a e → a.value = some (.str s) →
      filterTypes.lookup s = none → FilterDue es vs (.filterUnknownType s)
  | arg {a : An} {e x : Expr} {s k : Ident} {args : List Ident} : Named es vs "type" a e → a.value = some (.str s) →
      filterTypes.lookup s = some args → x ∈ es → x.kwarg = some k → k ≠ "type" → k ≠ "name" → k ∉ args →
      FilterDue es vs (.filterBadArg s k)
  | flag {a b : An} {e x : Expr} {s : Ident} {args : List Ident} {r : FlagRule} {m : Msg} : Named es vs "type" a e →
      a.value = some (.str s) → filterTypes.lookup s = some args → filterFlags.lookup s = some r →
      Named es vs r.field b x → BadFlag s r x.kwargValue m → FilterDue es vs m

/-- The name of the proc that a `++` or `--` needs. -/
inductive Overload : UnaryOp → Ident → Prop
  | preIncr : Overload .preIncr "operator++"
  | postIncr : Overload .postIncr "operator++"
  | preDecr : Overload .preDecr "operator--"
  | postDecr : Overload .postDecr "operator--"

/-- The calls that sleep: on the type and by the name. -/
inductive Sleeps (t : Tree) : Nat → Ident → Ident → Prop
  | client {i : Nat} {n : Ident} : t.path i = ["client"] → n = "SoundQuery" ∨ n = "MeasureText" →
      Sleeps t i n ("client." ++ n)
  | world {i : Nat} {n : Ident} : t.path i = ["world"] → n = "Import" ∨ n = "Export" → Sleeps t i n ("world." ++ n)

/-- What the call of a proc has as effects. -/
inductive CallDue (c : Ctx) (src : Nat) (p : Proc) (ex inh : Bool) (es : Exprs) : Effect → Prop
  | edge : CallDue c src p ex inh es (.call ⟨p, c.newContext, src, ex, inh⟩)
  | privateCall {q : Proc} : c.privateBy p = some q → q.ty ≠ c.ty → CallDue c src p ex inh es (.msg (.privateProc q))
  | badKwarg {e : Expr} {n : Ident} : e ∈ es.toList → e.kwarg = some n → n ∉ (c.tree.info p).params →
      CallDue c src p ex inh es (.msg (.badKwarg n p))
  | usesKwarg {e : Expr} {n : Ident} : ex = false → e ∈ es.toList → e.kwarg = some n → n ∈ (c.tree.info p).params →
      CallDue c src p ex inh es (.kwarg src p n)
  | kwargOrder {pre post : List Expr} {x e : Expr} : es.toList = pre ++ e :: post → x ∈ pre → x.kwarg ≠ none →
      e.kwarg = none → ¬ (p.ty = 0 ∧ p.name = "animate") → CallDue c src p ex inh es (.msg (.kwargOrder p))
  | emptyFind : es = .nil → (c.tree.info p).builtin = true → p.name = "Find" →
      c.tree.path p.ty = ["list"] ∨ c.tree.path p.ty = ["alist"] → CallDue c src p ex inh es (.msg .emptyFind)
  | filter {vs : List An} {m : Msg} : p.ty = 0 → p.name = "filter" → ArgsAre c es vs → FilterDue es.toList vs m →
      CallDue c src p ex inh es (.msg m)
  | returnType {vs : List An} {t : TExpr} {path : List Ident} : ArgsAre c es vs → ¬ Casts p es.toList vs →
      ¬ (p.ty = 0 ∧ p.name = "filter" ∧ BadFilter es.toList vs) → ¬ (p.ty = 0 ∧ (c.tree.info p).builtin = true) →
      c.returns p = some t → MeansMissing c.tree (Given es.toList vs) t path →
      CallDue c src p ex inh es (.msg (.undefinedType path))

/-- Every effect that a site has.  The place of the effect is that of the site. -/
inductive Due (c : Ctx) : Site → Effect → Prop
  -- names
  | undefinedVar {l : Loc} {h : Option Nat} {n : Ident} : c.locals n = none → n ≠ "type" →
      (∀ d, ¬ Declares c.tree c.ty n d) → Due c (.term l h (.ident n)) (.msg (.undefinedVar n))
  | varType {l : Loc} {h : Option Nat} {n : Ident} {d : VarDecl} {p : List Ident} : c.locals n = none → n ≠ "type" →
      Declares c.tree c.ty n d → Missing c.tree d.path p → Due c (.term l h (.ident n)) (.msg (.undefinedType p))
  | undefinedGlobal {l : Loc} {h : Option Nat} {n : Ident} : (∀ d, ¬ Declares c.tree 0 n d) →
      Due c (.term l h (.globalIdent n)) (.msg (.undefinedGlobalVar n))
  | globalType {l : Loc} {h : Option Nat} {n : Ident} {d : VarDecl} {p : List Ident} :
      Declares c.tree 0 n d → Missing c.tree d.path p → Due c (.term l h (.globalIdent n)) (.msg (.undefinedType p))
  | badPath {l : Loc} {h : Option Nat} {p : List (PathOp × Ident)} : c.tree.nav c.ty p = none →
      Due c (.term l h (.prefab p)) (.msg .badPath)
  | badNewPath {l : Loc} {h : Option Nat} {p : List (PathOp × Ident)} {es : Exprs} : c.tree.nav c.ty p = none →
      Due c (.term l h (.newPrefab p es)) (.msg .badPath)
  -- fields
  | undefinedField {l : Loc} {a : An} {k : Access} {n : Ident} {i : Nat} : k.checked → Basic c.tree a.st i →
      ¬ (c.tree.path i = ["callee"] ∧ n = "proc") → (∀ d, ¬ Declares c.tree i n d) →
      Due c (.follow l a (.field k n)) (.msg (.undefinedField n i))
  | fieldType {l : Loc} {a : An} {k : Access} {n : Ident} {i : Nat} {d : VarDecl} {p : List Ident} : k.checked →
      Basic c.tree a.st i → ¬ (c.tree.path i = ["callee"] ∧ n = "proc") → Declares c.tree i n d →
      Missing c.tree d.path p → Due c (.follow l a (.field k n)) (.msg (.undefinedType p))
  | privateVar {l : Loc} {a : An} {k : Access} {n : Ident} {i : Nat} {d : VarDecl} : k.checked →
      Basic c.tree a.st i → ¬ (c.tree.path i = ["callee"] ∧ n = "proc") → Declares c.tree i n d → d.isPrivate = true →
      i ≠ c.ty → Due c (.follow l a (.field k n)) (.msg (.privateVar n i))
  | protectedVar {l : Loc} {a : An} {k : Access} {n : Ident} {i : Nat} {d : VarDecl} : k.checked →
      Basic c.tree a.st i → ¬ (c.tree.path i = ["callee"] ∧ n = "proc") → Declares c.tree i n d → d.isPrivate = false →
      d.isProtected = true → ¬ Sub c.tree c.ty i → Due c (.follow l a (.field k n)) (.msg (.protectedVar n i))
  | fieldNeedsType {l : Loc} {a : An} {k : Access} {n : Ident} : k.checked → a.st = .none →
      Due c (.follow l a (.field k n)) (.msg (.fieldNeedsType n))
  | undefinedProcField {l : Loc} {a : An} {k : Access} {n : Ident} : k.checked → a.st = .proc →
      n ∉ ["type", "name", "desc", "category", "invisibility"] →
      Due c (.follow l a (.field k n)) (.msg (.undefinedProcField n))
  | undefinedScoped {l : Loc} {a : An} {n : Ident} {i : Nat} : Scope c a i → (∀ d, ¬ Declares c.tree i n d) →
      Due c (.follow l a (.staticField n)) (.msg (.undefinedField n i))
  | scopedType {l : Loc} {a : An} {n : Ident} {i : Nat} {d : VarDecl} {p : List Ident} : Scope c a i →
      Declares c.tree i n d → Missing c.tree d.path p → Due c (.follow l a (.staticField n)) (.msg (.undefinedType p))
  | noTypepath {l : Loc} {a : An} {f : Follow} {n : Ident} : f = .staticField n ∨ f = .procRef n →
      (∀ i, ¬ Basic c.tree a.st i) → a.value = none → Due c (.follow l a f) (.msg (.noTypepath n))
  | notTypepath {l : Loc} {a : An} {f : Follow} {n : Ident} {v : Val} : f = .staticField n ∨ f = .procRef n →
      (∀ i, ¬ Basic c.tree a.st i) → a.value = some v → (∀ p, v ≠ .prefab p) → Due c (.follow l a f) (.msg .notTypepath)
  | missingTypepath {l : Loc} {a : An} {f : Follow} {n : Ident} {p : List Ident} : f = .staticField n ∨ f = .procRef n →
      (∀ i, ¬ Basic c.tree a.st i) → a.value = some (.prefab p) → c.tree.find p = none →
      Due c (.follow l a f) (.msg (.missingTypepath p))
  -- procs
  | undefinedProc {l : Loc} {h : Option Nat} {n : Ident} {es : Exprs} : (∀ p, ¬ Defines c.tree c.ty n p) →
      n ∉ ["__PROC__", "SpacemanDMM_unlint", "SpacemanDMM_debug"] →
      Due c (.term l h (.call n es)) (.msg (.undefinedProc n c.ty))
  | undefinedGlobalProc {l : Loc} {h : Option Nat} {n : Ident} {es : Exprs} : (∀ p, ¬ Defines c.tree 0 n p) →
      Due c (.term l h (.globalCall n es)) (.msg (.undefinedGlobalProc n))
  | noParentProc {l : Loc} {h : Option Nat} {es : Exprs} : (∀ p, ¬ ParentOf c.tree c.proc p) →
      Due c (.term l h (.parentCall es)) (.msg .noParentProc)
  | undefinedMethod {l : Loc} {a : An} {k : Access} {n : Ident} {es : Exprs} {i : Nat} : k.checked →
      Basic c.tree a.st i → (∀ p, ¬ Defines c.tree i n p) → Due c (.follow l a (.call k n es)) (.msg (.undefinedProc n i))
  | callNeedsType {l : Loc} {a : An} {k : Access} {n : Ident} {es : Exprs} : k.checked → (∀ i, ¬ Basic c.tree a.st i) →
      Due c (.follow l a (.call k n es)) (.msg (.callNeedsType n))
  | undefinedProcRef {l : Loc} {a : An} {n : Ident} {i : Nat} : Scope c a i → (∀ p, ¬ Defines c.tree i n p) →
      Due c (.follow l a (.procRef n)) (.msg (.undefinedProc n i))
  | noTypeHint {l : Loc} {es : Exprs} : Due c (.term l none (.newImplicit es)) (.msg .noTypeHint)
  | noNew {l : Loc} {es : Exprs} {i : Nat} : (∀ p, ¬ Defines c.tree i "New" p) →
      c.tree.path i ∉ [["list"], ["alist"], ["vector"], ["pixloc"]] →
      Due c (.term l (some i) (.newImplicit es)) (.msg (.noNew i))
  | noNewPath {l : Loc} {h : Option Nat} {path : List (PathOp × Ident)} {es : Exprs} {i : Nat} :
      c.tree.nav c.ty path = some i → (∀ p, ¬ Defines c.tree i "New" p) →
      c.tree.path i ∉ [["list"], ["alist"], ["vector"], ["pixloc"]] →
      Due c (.term l h (.newPrefab path es)) (.msg (.noNew i))
  | privateMethod {l : Loc} {a : An} {k : Access} {n : Ident} {es : Exprs} {i : Nat} {p q : Proc} : k.checked →
      Basic c.tree a.st i → Defines c.tree i n p → c.privateBy p = some q → q.ty ≠ i →
      Due c (.follow l a (.call k n es)) (.msg (.privateProc q))
  | protectedMethod {l : Loc} {a : An} {k : Access} {n : Ident} {es : Exprs} {i : Nat} {p q : Proc} : k.checked →
      Basic c.tree a.st i → Defines c.tree i n p → (∀ r, c.privateBy p = some r → r.ty = i) → c.protectedBy p = some q →
      ¬ Sub c.tree c.ty q.ty → Due c (.follow l a (.call k n es)) (.msg (.protectedProc q))
  | callsParent {l : Loc} {h : Option Nat} {es : Exprs} : Due c (.term l h (.parentCall es)) .callsParent
  -- operators
  | improperIndex {l : Loc} {a : An} {e : Expr} {i : Nat} : a.st = .type i → (∀ p, ¬ Defines c.tree i "operator[]" p) →
      Due c (.follow l a (.index e)) (.msg (.improperIndex i))
  | noOverload {l : Loc} {a : An} {op : UnaryOp} {n : Ident} {i : Nat} : Overload op n → a.st = .type i →
      (∀ p, ¬ Defines c.tree i n p) → Due c (.follow l a (.unary op)) (.msg (.noOverload n))
  | listOverload {l : Loc} {a : An} {op : UnaryOp} {n : Ident} {k : STy} : Overload op n → a.st = .list k →
      Due c (.follow l a (.unary op)) (.msg (.noOverload n))
  | impureOverload {l : Loc} {a : An} {op : UnaryOp} {n : Ident} : Overload op n → a.impure = true →
      Due c (.follow l a (.unary op)) (.impure (n ++ " done on non-local var"))
  | ambiguousIn {l l' : Loc} {t : Term} {fs : Follows} {y : Expr} {g : Loc} {op : UnaryOp} : (g, .unary op) ∈ fs.toList →
      Due c (.node l (.binary .isIn (.base l' t fs) y)) (.msg .ambiguousIn)
  | ambiguousIn' {l : Loc} {x y : Expr} : (∀ l' t fs, x ≠ .base l' t fs) →
      Due c (.node l (.binary .isIn x y)) (.msg .ambiguousIn)
  | ambiguousNot {l l' : Loc} {op : BinaryOp} {t : Term} {fs : Follows} {y : Expr} {g : Loc} :
      op = .bitAnd ∨ op = .bitOr ∨ op = .bitXor → (g, .unary .not) ∈ fs.toList →
      Due c (.node l (.binary op (.base l' t fs) y)) (.msg .ambiguousNot)
  | shiftMob {l : Loc} {x y : Expr} {a : An} : ExprIs c none x a → a.st = .type (c.tree.expect "mob") →
      Due c (.node l (.binary .lshift x y)) (.impure "LShift onto mob")
  | shiftSavefile {l : Loc} {x y : Expr} {a : An} : ExprIs c none x a → a.st = .type (c.tree.expect "savefile") →
      c.tree.expect "savefile" ≠ c.tree.expect "mob" → Due c (.node l (.binary .lshift x y)) (.impure "LShift onto savefile")
  | shiftList {l : Loc} {x y : Expr} {a : An} : ExprIs c none x a → a.st = .type (c.tree.expect "list") →
      c.tree.expect "list" ≠ c.tree.expect "mob" → c.tree.expect "list" ≠ c.tree.expect "savefile" →
      Due c (.node l (.binary .lshift x y)) (.impure "LShift onto list")
  | impureAssign {l : Loc} {op : AssignOp} {x y : Expr} {a : An} : ExprIs c none x a → a.impure = true →
      Due c (.node l (.assign op x y)) (.impure "Assignment on purity breaking expression")
  -- sleeping
  | sleeps {l : Loc} {h : Option Nat} {n : Ident} {es : Exprs} : c.newContext = false →
      n ∈ ["sleep", "alert", "shell", "winexists", "winget"] → Due c (.term l h (.call n es)) (.sleep n)
  | sleepsOn {l : Loc} {h : Option Nat} {n w : Ident} {es : Exprs} : c.newContext = false → Sleeps c.tree c.ty n w →
      Due c (.term l h (.call n es)) (.sleep w)
  | sleepsMethod {l : Loc} {a : An} {k : Access} {n w : Ident} {es : Exprs} {i : Nat} : c.newContext = false → k.checked →
      Basic c.tree a.st i → Sleeps c.tree i n w → Due c (.follow l a (.call k n es)) (.sleep w)
  | input {l : Loc} {h : Option Nat} {es fs : Exprs} : c.newContext = false →
      Due c (.term l h (.input es fs)) (.sleep "input")
  -- calls
  | call {s : Site} {src : Nat} {p : Proc} {ex inh : Bool} {es : Exprs} {eff : Effect} : Makes c s src p ex inh es →
      CallDue c src p ex inh es eff → Due c s eff

end Verif.Typing
