import Verif.Typing.Spec
import Verif.Refs.Walk

/-!
# What "Find References" should list

A specification that does not use the visitor of `Verif.Refs.Model`.

* `VarOn`, `ProcOn`: the type on which the declaration is that a name stands for.
* `ExprIs` (with `TermIs`, `FollowIs`): the static type of an expression.
* `At`: the terms and follows inside an expression that are looked at.
* `Names`: the symbols that a term or follow stands for.
* `items`: a proc body as the sequence of the expressions and declarations in it, without its block structure.
* `Visible`: the local variable that a name stands for after some of these.
-/

namespace Verif.Refs

open Verif.Typing (Ident Loc PathOp Tree VarDecl Proc modifiers Defines ParentOf)

/-- The declaration of a variable that counts on type `i` is `d`, on type `j`: the type itself or the nearest ancestor with
one. -/
inductive VarOn (t : Tree) : Nat → Ident → Nat → VarDecl → Prop
  | own {i : Nat} {n : Ident} {d : VarDecl} : t.vars i n = some d → VarOn t i n i d
  | inherited {i p j : Nat} {n : Ident} {d : VarDecl} :
      t.vars i n = none → t.parent i = some p → VarOn t p n j d → VarOn t i n j d

/-- The declaration of a proc that counts on type `i` is on type `j`. -/
inductive ProcOn (t : Tree) : Nat → Ident → Nat → Prop
  | own {i : Nat} {n : Ident} : t.kind i n ≠ none → ProcOn t i n i
  | inherited {i p j : Nat} {n : Ident} : t.kind i n = none → t.parent i = some p → ProcOn t p n j → ProcOn t i n j

/-- The words after which a path names a proc. -/
def ProcWord (x : Ident) : Prop := x = "proc" ∨ x = "verb"

/-- Where a path leads to from a type. -/
inductive Leads (c : Ctx) : Nat → List (PathOp × Ident) → Nav → Prop
  | here {i : Nat} : Leads c i [] (.type i)
  | group {i : Nat} {op : PathOp} {x : Ident} : ProcWord x → Leads c i [(op, x)] (.type i)
  | proc {i : Nat} {op op' : PathOp} {x n : Ident} {rest : List (PathOp × Ident)} {p : Proc} :
      ProcWord x → Defines c.tree i n p → Leads c i ((op, x) :: (op', n) :: rest) (.proc p)
  | step {i j : Nat} {op : PathOp} {x : Ident} {rest : List (PathOp × Ident)} {v : Nav} :
      ¬ ProcWord x → c.navigate i op x = some j → Leads c j rest v → Leads c i ((op, x) :: rest) v

/-- What a path in the code stands for: it starts at the root if it starts with `/`, else at the type of the code. -/
inductive Resolves (c : Ctx) : List (PathOp × Ident) → Nav → Prop
  | absolute {x : Ident} {rest : List (PathOp × Ident)} {v : Nav} :
      Leads c 0 ((.slash, x) :: rest) v → Resolves c ((.slash, x) :: rest) v
  | relative {p : List (PathOp × Ident)} {v : Nav} :
      (∀ x rest, p ≠ (.slash, x) :: rest) → Leads c c.ty p v → Resolves c p v

/-- What the type path of a declaration stands for: words like `static` do not count, `list/..` is a list of what follows,
anything else is the type of that path if there is one. -/
inductive PathIs (t : Tree) : List Ident → STy → Prop
  | nothing : PathIs t [] .none
  | modifier {x : Ident} {rest : List Ident} {s : STy} : x ∈ modifiers → PathIs t rest s → PathIs t (x :: rest) s
  | list {rest : List Ident} {k : STy} : PathIs t rest k → PathIs t ("list" :: rest) (.list k)
  | type {x : Ident} {rest : List Ident} {i : Nat} :
      x ∉ modifiers → x ≠ "list" → t.find (x :: rest) = some i → PathIs t (x :: rest) (.type i)
  | missing {x : Ident} {rest : List Ident} :
      x ∉ modifiers → x ≠ "list" → t.find (x :: rest) = none → PathIs t (x :: rest) .none

/-- The type whose fields and procs a value of this static type has. -/
inductive Basic (t : Tree) : STy → Nat → Prop
  | type (i : Nat) : Basic t (.type i) i
  | list (k : STy) : Basic t (.list k) (t.expect "list")

/-- The type hint that a static type gives. -/
inductive HintOf (t : Tree) (s : STy) : Option Nat → Prop
  | some {i : Nat} : Basic t s i → HintOf t s (some i)
  | none : (∀ i, ¬ Basic t s i) → HintOf t s none

/-- The types that a declared type stands for and mentions: `list/obj` mentions `/list` and `/obj`. -/
inductive Mentions (t : Tree) : STy → Nat → Prop
  | type (i : Nat) : Mentions t (.type i) i
  | list (k : STy) : Mentions t (.list k) (t.expect "list")
  | elem {k : STy} {i : Nat} : Mentions t k i → Mentions t (.list k) i

/-- The name of a keyword argument. -/
inductive Key : Expr → Prop
  | ident (l : Loc) (n : Ident) : Key (.base l (.ident n) .nil)
  | string (l : Loc) (s : Ident) : Key (.base l (.string s) .nil)

/-- The value of an argument: of a keyword argument, its right side. -/
inductive ArgValue : Expr → Expr → Prop
  | keyword {x y : Expr} : Key x → ArgValue (.assign true x y) y
  | plain {e : Expr} : (∀ x y, e = .assign true x y → ¬ Key x) → ArgValue e e

/-- Terms of which no type is known: literals, paths, and all calls. -/
inductive Untyped : Term → Prop
  | plain : Untyped .plain
  | string (s : Ident) : Untyped (.string s)
  | prefab (p : List (PathOp × Ident)) (vs : Vars) : Untyped (.prefab p vs)
  | interp (es : Exprs) : Untyped (.interp es)
  | call (n : Ident) (es : Exprs) : Untyped (.call n es)
  | selfCall (es : Exprs) : Untyped (.selfCall es)
  | parentCall (es : Exprs) : Untyped (.parentCall es)
  | newMini (n : Ident) (fs : List Ident) (es : Exprs) : Untyped (.newMini n fs es)
  | locate (es fs : Exprs) : Untyped (.locate es fs)
  | input (es fs : Exprs) : Untyped (.input es fs)
  | pick (es : Exprs) : Untyped (.pick es)
  | dynCall (es fs : Exprs) : Untyped (.dynCall es fs)
  | extCall (es : Exprs) (f : Expr) (fs : Exprs) : Untyped (.extCall es f fs)
  | globalCall (n : Ident) (es : Exprs) : Untyped (.globalCall n es)
  | typeMacro : Untyped .typeMacro
  | procMacro : Untyped .procMacro

/-- The static type of an unqualified name. -/
inductive NameIs (c : Ctx) (n : Ident) : STy → Prop
  | local {v : Local} : c.locals n = some v → NameIs c n v.ty
  | var {j : Nat} {d : VarDecl} {s : STy} : c.locals n = none → VarOn c.tree c.ty n j d → PathIs c.tree d.path s → NameIs c n s
  | unknown : c.locals n = none → (∀ j d, ¬ VarOn c.tree c.ty n j d) → NameIs c n .none

/-- The static type of a field of a value of static type `s`. -/
inductive FieldIs (c : Ctx) (s : STy) (n : Ident) : STy → Prop
  | var {i j : Nat} {d : VarDecl} {r : STy} :
      Basic c.tree s i → VarOn c.tree i n j d → PathIs c.tree d.path r → FieldIs c s n r
  | unknown : (∀ i j d, Basic c.tree s i → ¬ VarOn c.tree i n j d) → FieldIs c s n .none

mutual

/-- The static type of an expression, `hint` being the type that is assigned to. -/
inductive ExprIs (c : Ctx) : Option Nat → Expr → STy → Prop
  | term {hint : Option Nat} {l : Loc} {t : Term} {s : STy} : TermIs c hint t s → ExprIs c hint (.base l t .nil) s
  | follows {hint : Option Nat} {l l' : Loc} {t : Term} {f : Follow} {fs : Follows} {s r : STy} :
      TermIs c none t s → FollowsIs c s (.cons l' f fs) r → ExprIs c hint (.base l t (.cons l' f fs)) r
  | binary {hint : Option Nat} {op : Bool} {x y : Expr} : ExprIs c hint (.binary op x y) .none
  | assign {hint h : Option Nat} {op : Bool} {x y : Expr} {s r : STy} :
      ExprIs c none x s → HintOf c.tree s h → ExprIs c h y r → ExprIs c hint (.assign op x y) r
  | ternary {hint : Option Nat} {k x y : Expr} {s : STy} : ExprIs c hint x s → ExprIs c hint (.ternary k x y) s

/-- The same for a term. -/
inductive TermIs (c : Ctx) : Option Nat → Term → STy → Prop
  | untyped {h : Option Nat} {t : Term} : Untyped t → TermIs c h t .none
  | paren {h : Option Nat} {e : Expr} {s : STy} : ExprIs c h e s → TermIs c h (.expr e) s
  | name {h : Option Nat} {n : Ident} {s : STy} : NameIs c n s → TermIs c h (.ident n) s
  | newImplicit {i : Nat} {es : Exprs} : TermIs c (some i) (.newImplicit es) (.type i)
  | newUnknown {es : Exprs} : TermIs c none (.newImplicit es) .none
  | newPrefab {h : Option Nat} {p : List (PathOp × Ident)} {vs : Vars} {es : Exprs} {v : Nav} :
      Resolves c p v → TermIs c h (.newPrefab p vs es) (.type v.ty)
  | newNothing {h : Option Nat} {p : List (PathOp × Ident)} {vs : Vars} {es : Exprs} :
      (∀ v, ¬ Resolves c p v) → TermIs c h (.newPrefab p vs es) .none
  | list {h : Option Nat} {es : Exprs} : TermIs c h (.list es) (.list .none)
  | global {h : Option Nat} {n : Ident} {j : Nat} {d : VarDecl} {s : STy} :
      VarOn c.tree 0 n j d → PathIs c.tree d.path s → TermIs c h (.globalIdent n) s
  | noGlobal {h : Option Nat} {n : Ident} : (∀ j d, ¬ VarOn c.tree 0 n j d) → TermIs c h (.globalIdent n) .none
  | implied {i : Nat} : TermIs c (some i) .impliedType (.type i)
  | notImplied : TermIs c none .impliedType .none

/-- The same along follows, from the static type on their left. -/
inductive FollowsIs (c : Ctx) : STy → Follows → STy → Prop
  | nil {s : STy} : FollowsIs c s .nil s
  | cons {s r q : STy} {l : Loc} {f : Follow} {fs : Follows} :
      FollowIs c s f r → FollowsIs c r fs q → FollowsIs c s (.cons l f fs) q

/-- The same for one follow. -/
inductive FollowIs (c : Ctx) : STy → Follow → STy → Prop
  | unary {s : STy} : FollowIs c s .unary .none
  | elem {k : STy} {e : Expr} : FollowIs c (.list k) (.index e) k
  | index {s : STy} {e : Expr} : (∀ k, s ≠ .list k) → FollowIs c s (.index e) .none
  | field {s r : STy} {n : Ident} : FieldIs c s n r → FollowIs c s (.field n) r
  | call {s : STy} {n : Ident} {es : Exprs} : FollowIs c s (.call n es) .none
  | procRef {s : STy} {n : Ident} : FollowIs c s (.procRef n) .none

end

/-- A place inside an expression: a term, or a follow with the static type on its left. -/
inductive Site
  | term (l : Loc) (hint : Option Nat) (t : Term)
  | follow (l : Loc) (s : STy) (f : Follow)

/-- Its location. -/
def Site.loc : Site → Loc
  | .term l _ _ => l
  | .follow l _ _ => l

/-- The symbol of an unqualified name: the local variable, or else the variable of the type. -/
inductive NameSym (c : Ctx) (n : Ident) : Sym → Prop
  | local {v : Local} : c.locals n = some v → NameSym c n v.sym
  | var {j : Nat} {d : VarDecl} : c.locals n = none → VarOn c.tree c.ty n j d → NameSym c n (.var j n)

/-- The symbols of the fields in `foo.bar.baz`, from the static type on the left. -/
inductive FieldSyms (c : Ctx) : STy → List Ident → Sym → Prop
  | head {s : STy} {n : Ident} {ns : List Ident} {i j : Nat} {d : VarDecl} :
      Basic c.tree s i → VarOn c.tree i n j d → FieldSyms c s (n :: ns) (.var j n)
  | tail {s r : STy} {n : Ident} {ns : List Ident} {y : Sym} :
      FieldIs c s n r → FieldSyms c r ns y → FieldSyms c s (n :: ns) y

/-- The symbols of a path with variables, like `/obj/thing{name = "x"}` or `/obj/proc/foo`. -/
inductive PrefabSym (c : Ctx) (p : List (PathOp × Ident)) (vs : Vars) : Sym → Prop
  | type {i : Nat} : Resolves c p (.type i) → PrefabSym c p vs (.type i)
  | var {i j : Nat} {n : Ident} {e : Expr} {d : VarDecl} :
      Resolves c p (.type i) → (n, e) ∈ vs.toList → VarOn c.tree i n j d → PrefabSym c p vs (.var j n)
  | proc {q : Proc} {j : Nat} : Resolves c p (.proc q) → ProcOn c.tree q.ty q.name j → PrefabSym c p vs (.proc j q.name)

/-- The symbols that a term or follow stands for. -/
inductive Names (c : Ctx) : Site → Sym → Prop
  | name {l : Loc} {h : Option Nat} {n : Ident} {s : Sym} : NameSym c n s → Names c (.term l h (.ident n)) s
  | call {l : Loc} {h : Option Nat} {n : Ident} {es : Exprs} {p : Proc} {j : Nat} :
      Defines c.tree c.ty n p → ProcOn c.tree c.ty n j → Names c (.term l h (.call n es)) (.proc j n)
  | globalCall {l : Loc} {h : Option Nat} {n : Ident} {es : Exprs} {p : Proc} {j : Nat} :
      Defines c.tree 0 n p → ProcOn c.tree 0 n j → Names c (.term l h (.globalCall n es)) (.proc j n)
  | global {l : Loc} {h : Option Nat} {n : Ident} {j : Nat} {d : VarDecl} :
      VarOn c.tree 0 n j d → Names c (.term l h (.globalIdent n)) (.var j n)
  | prefab {l : Loc} {h : Option Nat} {p : List (PathOp × Ident)} {vs : Vars} {s : Sym} :
      PrefabSym c p vs s → Names c (.term l h (.prefab p vs)) s
  | newPrefab {l : Loc} {h : Option Nat} {p : List (PathOp × Ident)} {vs : Vars} {es : Exprs} {s : Sym} :
      PrefabSym c p vs s → Names c (.term l h (.newPrefab p vs es)) s
  | mini {l : Loc} {h : Option Nat} {n : Ident} {fs : List Ident} {es : Exprs} {s : Sym} :
      NameSym c n s → Names c (.term l h (.newMini n fs es)) s
  | miniField {l : Loc} {h : Option Nat} {n : Ident} {fs : List Ident} {es : Exprs} {r : STy} {s : Sym} :
      NameIs c n r → FieldSyms c r fs s → Names c (.term l h (.newMini n fs es)) s
  | typeMacro {l : Loc} {h : Option Nat} : Names c (.term l h .typeMacro) (.type c.ty)
  | procMacro {l : Loc} {h : Option Nat} {p : Proc} {j : Nat} :
      c.proc = some p → ProcOn c.tree c.ty p.name j → Names c (.term l h .procMacro) (.proc j p.name)
  | implied {l : Loc} {i : Nat} : Names c (.term l (some i) .impliedType) (.type i)
  | field {l : Loc} {s : STy} {n : Ident} {i j : Nat} {d : VarDecl} :
      Basic c.tree s i → VarOn c.tree i n j d → Names c (.follow l s (.field n)) (.var j n)
  | method {l : Loc} {s : STy} {n : Ident} {es : Exprs} {i j : Nat} {p : Proc} :
      Basic c.tree s i → Defines c.tree i n p → ProcOn c.tree i n j → Names c (.follow l s (.call n es)) (.proc j n)
  | procRef {l : Loc} {s : STy} {n : Ident} {i j : Nat} :
      Basic c.tree s i → ProcOn c.tree i n j → Names c (.follow l s (.procRef n)) (.proc j n)

/-- The arguments that are looked at.  Those of an unqualified call are looked at only if the proc is found, those of
`new` only if its type and its `New` are. -/
inductive ArgsOf (c : Ctx) : Site → Exprs → Prop
  | call {l : Loc} {h : Option Nat} {n : Ident} {es : Exprs} {p : Proc} :
      Defines c.tree c.ty n p → ArgsOf c (.term l h (.call n es)) es
  | selfCall {l : Loc} {h : Option Nat} {es : Exprs} {p : Proc} : c.proc = some p → ArgsOf c (.term l h (.selfCall es)) es
  | parentCall {l : Loc} {h : Option Nat} {es : Exprs} {p q : Proc} :
      c.proc = some p → ParentOf c.tree p q → ArgsOf c (.term l h (.parentCall es)) es
  | newImplicit {l : Loc} {i : Nat} {es : Exprs} {p : Proc} :
      Defines c.tree i "New" p → ArgsOf c (.term l (some i) (.newImplicit es)) es
  | newPrefab {l : Loc} {h : Option Nat} {path : List (PathOp × Ident)} {vs : Vars} {es : Exprs} {v : Nav} {p : Proc} :
      Resolves c path v → Defines c.tree v.ty "New" p → ArgsOf c (.term l h (.newPrefab path vs es)) es
  | list {l : Loc} {h : Option Nat} {es : Exprs} : ArgsOf c (.term l h (.list es)) es
  | locate {l : Loc} {h : Option Nat} {es fs : Exprs} : ArgsOf c (.term l h (.locate es fs)) es
  | input {l : Loc} {h : Option Nat} {es fs : Exprs} : ArgsOf c (.term l h (.input es fs)) es
  | dynLeft {l : Loc} {h : Option Nat} {es fs : Exprs} : ArgsOf c (.term l h (.dynCall es fs)) es
  | dynRight {l : Loc} {h : Option Nat} {es fs : Exprs} : ArgsOf c (.term l h (.dynCall es fs)) fs
  | ext {l : Loc} {h : Option Nat} {es fs : Exprs} {f : Expr} : ArgsOf c (.term l h (.extCall es f fs)) fs
  | globalCall {l : Loc} {h : Option Nat} {n : Ident} {es : Exprs} : ArgsOf c (.term l h (.globalCall n es)) es
  | method {l : Loc} {s : STy} {n : Ident} {es : Exprs} : ArgsOf c (.follow l s (.call n es)) es

/-- The variables of a path that are looked at, and the type of the path. -/
inductive VarsOf (c : Ctx) : Site → Nat → Vars → Prop
  | prefab {l : Loc} {h : Option Nat} {p : List (PathOp × Ident)} {vs : Vars} {i : Nat} :
      Resolves c p (.type i) → VarsOf c (.term l h (.prefab p vs)) i vs
  | newPrefab {l : Loc} {h : Option Nat} {p : List (PathOp × Ident)} {vs : Vars} {es : Exprs} {i : Nat} :
      Resolves c p (.type i) → VarsOf c (.term l h (.newPrefab p vs es)) i vs

/-- Other expressions directly inside a term or follow. -/
inductive PartOf : Site → Expr → Prop
  | interp {l : Loc} {h : Option Nat} {es : Exprs} {e : Expr} : e ∈ es.toList → PartOf (.term l h (.interp es)) e
  | locate {l : Loc} {h : Option Nat} {es fs : Exprs} {e : Expr} : e ∈ fs.toList → PartOf (.term l h (.locate es fs)) e
  | input {l : Loc} {h : Option Nat} {es fs : Exprs} {e : Expr} : e ∈ fs.toList → PartOf (.term l h (.input es fs)) e
  | pick {l : Loc} {h : Option Nat} {es : Exprs} {e : Expr} : e ∈ es.toList → PartOf (.term l h (.pick es)) e
  | lib {l : Loc} {h : Option Nat} {es fs : Exprs} {f e : Expr} : e ∈ es.toList → PartOf (.term l h (.extCall es f fs)) e
  | fn {l : Loc} {h : Option Nat} {es fs : Exprs} {f : Expr} : PartOf (.term l h (.extCall es f fs)) f
  | index {l : Loc} {s : STy} {e : Expr} : PartOf (.follow l s (.index e)) e

/-- The type hint for the value of a variable in a path: the declared type of the variable. -/
inductive VarHint (t : Tree) (i : Nat) (n : Ident) : Option Nat → Prop
  | declared {j : Nat} {d : VarDecl} {s : STy} {h : Option Nat} :
      VarOn t i n j d → PathIs t d.path s → HintOf t s h → VarHint t i n h
  | unknown : (∀ j d, ¬ VarOn t i n j d) → VarHint t i n none

/-- The expressions directly inside a term or follow that are looked at, and the type hint for them. -/
inductive Opens (c : Ctx) : Site → Option Nat → Expr → Prop
  | paren {l : Loc} {h : Option Nat} {e : Expr} : Opens c (.term l h (.expr e)) h e
  | arg {s : Site} {es : Exprs} {e v : Expr} : ArgsOf c s es → e ∈ es.toList → ArgValue e v → Opens c s none v
  | var {s : Site} {i : Nat} {vs : Vars} {n : Ident} {e : Expr} {h : Option Nat} :
      VarsOf c s i vs → (n, e) ∈ vs.toList → VarHint c.tree i n h → Opens c s h e
  | part {s : Site} {e : Expr} : PartOf s e → Opens c s none e

/-- A follow of a chain of follows, with its place and the static type on its left. -/
inductive Along (c : Ctx) : STy → Follows → Loc → STy → Follow → Prop
  | head {s : STy} {l : Loc} {f : Follow} {fs : Follows} : Along c s (.cons l f fs) l s f
  | tail {s r q : STy} {l l' : Loc} {f g : Follow} {fs : Follows} :
      FollowIs c s f r → Along c r fs l' q g → Along c s (.cons l f fs) l' q g

/-- The type hint of a term: that of the expression if nothing follows the term. -/
def termHint (hint : Option Nat) : Follows → Option Nat
  | .nil => hint
  | .cons _ _ _ => none

/-- The places that are looked at in an expression with a type hint. -/
inductive At (c : Ctx) : Option Nat → Expr → Site → Prop
  | term {l : Loc} {h : Option Nat} {t : Term} {fs : Follows} : At c h (.base l t fs) (.term l (termHint h fs) t)
  | follow {l l' : Loc} {h : Option Nat} {t : Term} {fs : Follows} {s r : STy} {f : Follow} :
      TermIs c (termHint h fs) t s → Along c s fs l' r f → At c h (.base l t fs) (.follow l' r f)
  | inTerm {l : Loc} {h k : Option Nat} {t : Term} {fs : Follows} {e : Expr} {x : Site} :
      Opens c (.term l (termHint h fs) t) k e → At c k e x → At c h (.base l t fs) x
  | inFollow {l l' : Loc} {h k : Option Nat} {t : Term} {fs : Follows} {s r : STy} {f : Follow} {e : Expr} {x : Site} :
      TermIs c (termHint h fs) t s → Along c s fs l' r f → Opens c (.follow l' r f) k e → At c k e x →
      At c h (.base l t fs) x
  | orLeft {h : Option Nat} {x y : Expr} {s : Site} : At c h x s → At c h (.binary true x y) s
  | orRight {h : Option Nat} {x y : Expr} {s : Site} : At c h y s → At c h (.binary true x y) s
  | left {h : Option Nat} {x y : Expr} {s : Site} : At c none x s → At c h (.binary false x y) s
  | right {h : Option Nat} {x y : Expr} {s : Site} : At c none y s → At c h (.binary false x y) s
  | target {h : Option Nat} {op : Bool} {x y : Expr} {s : Site} : At c none x s → At c h (.assign op x y) s
  | value {h k : Option Nat} {op : Bool} {x y : Expr} {r : STy} {s : Site} :
      ExprIs c none x r → HintOf c.tree r k → At c k y s → At c h (.assign op x y) s
  | cond {h : Option Nat} {k x y : Expr} {s : Site} : At c none k s → At c h (.ternary k x y) s
  | yes {h : Option Nat} {k x y : Expr} {s : Site} : At c h x s → At c h (.ternary k x y) s
  | no {h : Option Nat} {k x y : Expr} {s : Site} : At c h y s → At c h (.ternary k x y) s

/-- The symbol `y` is named at `l` in the expression. -/
def NamedIn (c : Ctx) (h : Option Nat) (e : Expr) (y : Sym) (l : Loc) : Prop :=
  ∃ x, At c h e x ∧ Names c x y ∧ x.loc = l

/-- What happens in a proc, in the order of the text. -/
inductive Item
  /-- The declared type of a variable. -/
  | type (l : Loc) (path : List Ident)
  /-- An expression; `hint` is the declared type of the variable that it is the initial value of, else empty. -/
  | expr (l : Loc) (hint : List Ident) (e : Expr)
  /-- From here on the name is a local variable of this declared type. -/
  | decl (l : Loc) (path : List Ident) (n : Ident)
  /-- The value `.` of the proc is returned. -/
  | ret (l : Loc)

/-- An optional expression. -/
def optItem (l : Loc) (hint : List Ident) : Option Expr → List Item
  | none => []
  | some e => [.expr l hint e]

/-- A declaration of a local variable with an optional initial value. -/
def varItems (l : Loc) (path : List Ident) (n : Ident) (value : Option Expr) : List Item :=
  .type l path :: optItem l path value ++ [.decl l path n]

/-- A parameter. -/
def paramItems (p : Param) : List Item :=
  .type p.loc p.path :: optItem p.loc [] p.default ++ [.decl p.loc p.path p.name]

/-- The variable of a loop, if it is declared there. -/
def loopItems (l : Loc) (n : Ident) (value : Option Expr) : Option (List Ident) → List Item
  | none => []
  | some path => varItems l path n value

/-- A parameter of `catch`, like `var/exception/e`. -/
def catchItems (l : Loc) (p : List Ident) : List Item :=
  match p.getLast? with
  | none => []
  | some n => varItems l (if p.dropLast.head? = some "var" then p.dropLast.tail else p.dropLast) n none

/-- The values of a case. -/
def caseItems (l : Loc) : Case → List Item
  | .exact e => [.expr l [] e]
  | .range a b => [.expr l [] a, .expr l [] b]

mutual

/-- What happens in a statement.  Not looked at: the value of `set`, the argument of `CRASH()`, and the start of a loop
`for(x = 1 to 5)` whose variable is not declared in it. -/
def items (l : Loc) : Stmt → List Item
  | .expr e => [.expr l [] e]
  | .ret e => .ret l :: optItem l [] e
  | .throw e => [.expr l [] e]
  | .while k b => .expr l [] k :: blockItems b
  | .doWhile b kl k => blockItems b ++ [.expr kl [] k]
  | .ifs arms => armItems arms
  | .forever b => blockItems b
  | .for init test inc b => headItems l init ++ optItem l [] test ++ headItems l inc ++ blockItems b
  | .forIn ty n list b => optItem l [] list ++ loopItems l n none ty ++ blockItems b
  | .forTo ty n start stop step b =>
    .expr l [] stop :: optItem l [] step ++ loopItems l n (some start) ty ++ blockItems b
  | .forPairs ty k v list b =>
    optItem l [] list ++ loopItems l k none ty ++ varItems l [] v none ++ blockItems b
  | .vars ds => ds.flatMap fun d => varItems l d.path d.name d.value
  | .setting _ _ => []
  | .spawn delay b => optItem l [] delay ++ blockItems b
  | .switch input cases => .expr l [] input :: switchItems cases
  | .tryCatch b params handler => blockItems b ++ params.flatMap (catchItems l) ++ blockItems handler
  | .cont => []
  | .brk => []
  | .goto _ => []
  | .crash _ => []
  | .label _ b => blockItems b
  | .del e => [.expr l [] e]

/-- What happens in a block. -/
def blockItems : Block → List Item
  | .nil => []
  | .cons l s b => items l s ++ blockItems b

/-- What happens in the head of a `for`. -/
def headItems (l : Loc) : Head → List Item
  | .none => []
  | .some s => items l s

/-- What happens in the arms of an `if`. -/
def armItems : Arms → List Item
  | .noElse => []
  | .els b => blockItems b
  | .cons l k b rest => .expr l [] k :: blockItems b ++ armItems rest

/-- What happens in the cases of a `switch`. -/
def switchItems : Cases → List Item
  | .noDefault => []
  | .dflt b => blockItems b
  | .cons l ks b rest => ks.flatMap (caseItems l) ++ blockItems b ++ switchItems rest

end

/-- What happens in a proc. -/
def bodyItems (d : Def) (b : Block) : List Item := d.params.flatMap paramItems ++ blockItems b

/-- Whether an item declares a name. -/
def Item.declares (n : Ident) : Item → Prop
  | .decl _ _ m => m = n
  | _ => False

/-- Whether an item declares something. -/
def Item.isDecl : Item → Bool
  | .decl _ _ _ => true
  | _ => false

/-- The local variables that are there at the start of a proc on type `i`: their type, and their number among the symbols
made for the proc, except that `global` is the root type. -/
inductive Predefined (t : Tree) (i : Nat) : Ident → STy → Option Nat → Prop
  | global : Predefined t i "global" (.type 0) none
  | dot : Predefined t i "." .none (some 0)
  | args : Predefined t i "args" (.type (t.expect "list")) (some 1)
  | usr : Predefined t i "usr" (.type (t.expect "mob")) (some 2)
  | src : i ≠ 0 → Predefined t i "src" (.type i) (some 3)

/-- How many symbols are made at the start of a proc on type `i`. -/
def predefinedCount (i : Nat) : Nat := if i = 0 then 3 else 4

/-- The local variable that a name stands for after the items `pre` of a proc on type `i` whose symbols are numbered from
`m` on: the one declared last, no matter in which block, or else a predefined one. -/
inductive Visible (t : Tree) (m i : Nat) (pre : List Item) (n : Ident) : Local → Prop
  | declared {p1 p2 : List Item} {l : Loc} {path : List Ident} {s : STy} :
      pre = p1 ++ .decl l path n :: p2 → (∀ x ∈ p2, ¬ x.declares n) → PathIs t path s →
      Visible t m i pre n ⟨s, .local (m + predefinedCount i + (p1.filter Item.isDecl).length)⟩
  | predefined {s : STy} {k : Nat} :
      (∀ x ∈ pre, ¬ x.declares n) → Predefined t i n s (some k) → Visible t m i pre n ⟨s, .local (m + k)⟩
  | global : (∀ x ∈ pre, ¬ x.declares n) → Predefined t i n (.type 0) none → Visible t m i pre n ⟨.type 0, .type 0⟩

/-- The symbol `y` is named at `l` by an item, `env` being the local variables. -/
inductive ItemNames (c : Ctx) (env : Ident → Option Local) : Item → Sym → Loc → Prop
  | type {l : Loc} {path : List Ident} {s : STy} {i : Nat} :
      PathIs c.tree path s → Mentions c.tree s i → ItemNames c env (.type l path) (.type i) l
  | expr {l l' : Loc} {hint : List Ident} {e : Expr} {s : STy} {h : Option Nat} {y : Sym} :
      PathIs c.tree hint s → HintOf c.tree s h → NamedIn { c with locals := env } h e y l' →
      ItemNames c env (.expr l hint e) y l'
  | ret {l : Loc} {v : Local} : env "." = some v → ItemNames c env (.ret l) v.sym l

/-- The symbol `y` is named at `l` in a definition of the proc `p`. -/
def NamedInProc (P : Prog) (m : Nat) (p : Proc) (d : Def) (b : Block) (y : Sym) (l : Loc) : Prop :=
  ∃ pre it post env, bodyItems d b = pre ++ it :: post ∧
    (∀ n v, env n = some v ↔ Visible P.tree m p.ty pre n v) ∧ ItemNames (P.procCtx p) env it y l

/-- Something with code in it: a variable of type `i` with a value, or a definition of a proc with a body. -/
inductive Job
  | var (i : Nat) (n : Ident) (l : Loc) (e : Expr)
  | body (p : Proc) (d : Def) (b : Block)

/-- Everything with code in it, in the order in which local variables are numbered. -/
def Prog.jobs (P : Prog) : List Job :=
  P.types.flatMap fun i =>
    ((P.vars i).flatMap fun v => v.2.2.toList.map fun e => .var i v.1 v.2.1 e) ++
    (P.procs i).flatMap fun q => q.2.zipIdx.flatMap fun d => d.1.code.toList.map fun b => .body ⟨i, q.1, d.2⟩ d.1 b

/-- How many symbols for local variables it needs. -/
def Job.symbols : Job → Nat
  | .var _ _ _ _ => 0
  | .body p d b => predefinedCount p.ty + ((bodyItems d b).filter Item.isDecl).length

/-- The symbol `y` is named or, if it is a local variable, declared at `l` in a piece of code whose local variables are
numbered from `m` on. -/
inductive JobNames (P : Prog) (m : Nat) : Job → Sym → Loc → Prop
  | init {i : Nat} {n : Ident} {l l' : Loc} {e : Expr} {h : Option Nat} {y : Sym} :
      VarHint P.tree i n h → NamedIn (P.tyCtx i) h e y l' → JobNames P m (.var i n l e) y l'
  | named {p : Proc} {d : Def} {b : Block} {y : Sym} {l : Loc} :
      NamedInProc P m p d b y l → JobNames P m (.body p d b) y l
  | predefined {p : Proc} {d : Def} {b : Block} {k : Nat} :
      k < predefinedCount p.ty → JobNames P m (.body p d b) (.local (m + k)) d.loc
  | declared {p : Proc} {d : Def} {b : Block} {p1 p2 : List Item} {l : Loc} {path : List Ident} {n : Ident} :
      bodyItems d b = p1 ++ .decl l path n :: p2 →
      JobNames P m (.body p d b) (.local (m + predefinedCount p.ty + (p1.filter Item.isDecl).length)) l

/-- The places where a symbol is named. -/
def Prog.Named (P : Prog) (y : Sym) (l : Loc) : Prop :=
  ∃ pre job post, P.jobs = pre ++ job :: post ∧ JobNames P (pre.map Job.symbols).sum job y l

/-- The places where a symbol is implemented: of a type its own place, of a variable the places where it gets a value, and
of a proc the place of the first definition on each type. -/
inductive Prog.Implemented (P : Prog) : Sym → Loc → Prop
  | type {i : Nat} : i ∈ P.types → P.Implemented (.type i) (P.tyLoc i)
  | var {i j : Nat} {n : Ident} {l : Loc} {e : Option Expr} {d : VarDecl} :
      i ∈ P.types → (n, l, e) ∈ P.vars i → VarOn P.tree i n j d → P.Implemented (.var j n) l
  | proc {i j : Nat} {n : Ident} {d : Def} {ds : List Def} :
      i ∈ P.types → (n, d :: ds) ∈ P.procs i → ProcOn P.tree i n j → P.Implemented (.proc j n) d.loc

end Verif.Refs
