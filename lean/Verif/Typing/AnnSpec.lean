import Verif.Typing.Spec
import Verif.Typing.AnnModel

/-!
# What a return type annotation means

A specification that does not use the compiler of type expressions: `Accepted` says which annotations are allowed, `AnnReads`
what one stands for in a call, both on the annotation as it is written.
-/

namespace Verif.Typing

/-- `n` names the `i`-th parameter, the first of that name. -/
def FirstParam (params : List Ident) (n : Ident) (i : Nat) : Prop := params[i]? = some n ∧ ∀ j, j < i → params[j]? ≠ some n

/-- The expression `_`. -/
def IsUnderscore (e : Expr) : Prop := ∃ l, e = .base l (.ident "_") .nil

/-- `[_]`, repeated `k` times. -/
inductive Indices : Follows → Nat → Prop
  | none : Indices .nil 0
  | more {l : Loc} {e : Expr} {fs : Follows} {k : Nat} :
      IsUnderscore e → Indices fs k → Indices (.cons l (.index e) fs) (k + 1)

/-- `[_]`, repeated `k` times, and then `.type`. -/
inductive IndicesType : Follows → Nat → Prop
  | type {l : Loc} {a : Access} : IndicesType (.cons l (.field a "type") .nil) 0
  | more {l : Loc} {e : Expr} {fs : Follows} {k : Nat} :
      IsUnderscore e → IndicesType fs k → IndicesType (.cons l (.index e) fs) (k + 1)

/-- `param`, `param[_]`, `param[_][_]`, with brackets around or without: the parameter `n`, its position and how often
`[_]` comes. -/
inductive Ref (params : List Ident) : Expr → Ident → Nat → Nat → Prop
  | param {l : Loc} {n : Ident} {i k : Nat} {fs : Follows} :
      FirstParam params n i → Indices fs k → Ref params (.base l (.ident n) fs) n i k
  | paren {l : Loc} {e : Expr} {n : Ident} {i j k : Nat} {fs : Follows} :
      Ref params e n i j → Indices fs k → Ref params (.base l (.expr e) fs) n i (j + k)

/-- `param.type`, `param[_].type`, `param[_][_].type`, with brackets around or without. -/
inductive RefType (params : List Ident) : Expr → Ident → Nat → Nat → Prop
  | param {l : Loc} {n : Ident} {i k : Nat} {fs : Follows} :
      FirstParam params n i → IndicesType fs k → RefType params (.base l (.ident n) fs) n i k
  | paren {l : Loc} {e : Expr} {n : Ident} {i j k : Nat} {fs : Follows} :
      Ref params e n i j → IndicesType fs k → RefType params (.base l (.expr e) fs) n i (j + k)
  | whole {l : Loc} {e : Expr} {n : Ident} {i k : Nat} :
      RefType params e n i k → RefType params (.base l (.expr e) .nil) n i k

/-- The annotations that are allowed. -/
inductive Accepted (t : Tree) (params : List Ident) : Expr → Prop
  | ref {e : Expr} {n : Ident} {i k : Nat} : Ref params e n i k → Accepted t params e
  | refType {e : Expr} {n : Ident} {i k : Nat} : RefType params e n i k → Accepted t params e
  | null {l : Loc} : Accepted t params (.base l .null .nil)
  | path {l : Loc} {ps : List (PathOp × Ident)} {s : STy} :
      PathType t (ps.map Prod.snd) (some s) → Accepted t params (.base l (.prefab ps) .nil)
  | paren {l : Loc} {e : Expr} : Accepted t params e → Accepted t params (.base l (.expr e) .nil)
  | or {a b : Expr} : Accepted t params a → Accepted t params b → Accepted t params (.binary .or a b)
  | and {a b : Expr} : Accepted t params a → Accepted t params b → Accepted t params (.binary .and a b)
  | ternary {c a b : Expr} :
      Accepted t params c → Accepted t params a → Accepted t params b → Accepted t params (.ternary c a b)

/-- What an annotation stands for in a call, `given n i` being the argument for the parameter `n` at position `i`; `none`
when the argument is a path to a type that does not exist.

* `/path` is the type of that path, `null` no type;
* `param` is the type the argument is a path to, or no type;
* `param[_].type` is the static type of the argument with as many levels of list taken off as there are `[_]`;
* `a || b` is `a`, or `b` if `a` is no type; `a && b` is `b` unless `a` is no type; `c ? a : b` is `b` if `c` is no type and
  otherwise `a`. -/
inductive AnnReads (t : Tree) (params : List Ident) (given : Ident → Nat → Option An → Prop) : Expr → Option STy → Prop
  | null {l : Loc} : AnnReads t params given (.base l .null .nil) (some .none)
  | path {l : Loc} {ps : List (PathOp × Ident)} {s : STy} :
      PathType t (ps.map Prod.snd) (some s) → AnnReads t params given (.base l (.prefab ps) .nil) (some s)
  | paren {l : Loc} {e : Expr} {r : Option STy} :
      AnnReads t params given e r → AnnReads t params given (.base l (.expr e) .nil) r
  | value {e : Expr} {n : Ident} {i k : Nat} {a : An} {p : List Ident} {r : Option STy} :
      Ref params e n i k → given n i (some a) → a.value = some (.prefab p) → PathType t p r → AnnReads t params given e r
  | noValue {e : Expr} {n : Ident} {i k : Nat} {a : An} :
      Ref params e n i k → given n i (some a) → (∀ p, a.value ≠ some (.prefab p)) → AnnReads t params given e (some .none)
  | missing {e : Expr} {n : Ident} {i k : Nat} :
      Ref params e n i k → given n i none → AnnReads t params given e (some .none)
  | typeOf {e : Expr} {n : Ident} {i k : Nat} {a : An} {s : STy} :
      RefType params e n i k → given n i (some a) → Element a.st k s → AnnReads t params given e (some s)
  | typeOfMissing {e : Expr} {n : Ident} {i k : Nat} :
      RefType params e n i k → given n i none → AnnReads t params given e (some .none)
  | orLeft {a b : Expr} {s : STy} :
      AnnReads t params given a (some s) → s ≠ .none → AnnReads t params given (.binary .or a b) (some s)
  | orRight {a b : Expr} {r : Option STy} :
      AnnReads t params given a (some .none) → AnnReads t params given b r → AnnReads t params given (.binary .or a b) r
  | orBad {a b : Expr} : AnnReads t params given a none → AnnReads t params given (.binary .or a b) none
  | andRight {a b : Expr} {s : STy} {r : Option STy} :
      AnnReads t params given a (some s) → s ≠ .none → AnnReads t params given b r → AnnReads t params given (.binary .and a b) r
  | andLeft {a b : Expr} :
      AnnReads t params given a (some .none) → AnnReads t params given (.binary .and a b) (some .none)
  | andBad {a b : Expr} : AnnReads t params given a none → AnnReads t params given (.binary .and a b) none
  | then {c a b : Expr} {s : STy} {r : Option STy} :
      AnnReads t params given c (some s) → s ≠ .none → AnnReads t params given a r → AnnReads t params given (.ternary c a b) r
  | else {c a b : Expr} {r : Option STy} :
      AnnReads t params given c (some .none) → AnnReads t params given b r → AnnReads t params given (.ternary c a b) r
  | ternaryBad {c a b : Expr} : AnnReads t params given c none → AnnReads t params given (.ternary c a b) none

/-- The basic words `mob`, `obj`, `turf`, `area`, `list` and the rest of the words of `as ..`. -/
inductive Covers : InputWord → InputWord → Prop
  | self (w : InputWord) : w ≠ .movable → w ≠ .atom → Covers w w
  | movableMob : Covers .movable .mob
  | movableObj : Covers .movable .obj
  | atomMob : Covers .atom .mob
  | atomObj : Covers .atom .obj
  | atomTurf : Covers .atom .turf
  | atomArea : Covers .atom .area

/-- Exactly the basic words `bs` are among what is written. -/
def Exactly (ws bs : List InputWord) : Prop := ∀ b, (∃ w ∈ ws, Covers w b) ↔ b ∈ bs

/-- Only the basic words `bs` are among what is written, and at least one of them. -/
def Only (ws bs : List InputWord) : Prop := ws ≠ [] ∧ ∀ b, (∃ w ∈ ws, Covers w b) → b ∈ bs

/-- The type `as ..` stands for: that of a single word, `/atom/movable` for mobs and objs, `/atom` for any other mix of
mobs, objs, turfs and areas. -/
inductive WordsPath (ws : List InputWord) : List Ident → Prop
  | mob : Exactly ws [.mob] → WordsPath ws ["mob"]
  | obj : Exactly ws [.obj] → WordsPath ws ["obj"]
  | turf : Exactly ws [.turf] → WordsPath ws ["turf"]
  | area : Exactly ws [.area] → WordsPath ws ["area"]
  | list : Exactly ws [.list] → WordsPath ws ["list"]
  | movable : Exactly ws [.mob, .obj] → WordsPath ws ["atom", "movable"]
  | atom {a b : InputWord} : a ≠ b → (∃ w ∈ ws, Covers w a) → (∃ w ∈ ws, Covers w b) → a = .turf ∨ a = .area →
      Only ws [.mob, .obj, .turf, .area] → WordsPath ws ["atom"]

/-- A raw path. -/
def RawPath (e : Expr) (ps : List (PathOp × Ident)) : Prop := ∃ l, e = .base l (.prefab ps) .nil

/-- A setting of the return type that counts: a raw path or an annotation that is allowed. -/
def Counts (g : Returns) (p : Proc) (s : Setting) : Prop :=
  s.name = "SpacemanDMM_return_type" ∧ ((∃ ps, RawPath s.value ps) ∨ Accepted g.tree (g.tree.info p).params s.value)

/-- The annotation of a definition: the last one in its code that counts. -/
def Annotation (g : Returns) (p : Proc) (e : Expr) : Prop :=
  ∃ pre s post, g.code p = some (pre ++ s :: post) ∧ s.value = e ∧ Counts g p s ∧ ∀ x ∈ post, ¬ Counts g p x

/-- The return type declared for a proc: by the type, or else by the nearest ancestor that declares the proc. -/
inductive DeclaresReturn (g : Returns) : Nat → Ident → DeclReturn → Prop
  | own {i : Nat} {n : Ident} {d : DeclReturn} : g.declares i n = some d → DeclaresReturn g i n d
  | inherited {i q : Nat} {n : Ident} {d : DeclReturn} :
      g.declares i n = none → g.tree.parent i = some q → DeclaresReturn g q n d → DeclaresReturn g i n d

/-- What a declared return type stands for. -/
inductive DeclType (t : Tree) : DeclReturn → STy → Prop
  | words {ws : List InputWord} {q : List Ident} {i : Nat} :
      WordsPath ws q → t.find q = some i → DeclType t (.words (inputBits ws)) (.type i)
  | path {q : List Ident} {s : STy} : PathType t q (some s) → DeclType t (.path q) s

/-- The static type of a call of the definition `p`; `none` when the annotation stands for the type of an argument that is a
path to a type that does not exist. -/
inductive CallReads (g : Returns) (p : Proc) (given : Ident → Nat → Option An → Prop) : Option STy → Prop
  | raw {e : Expr} {ps : List (PathOp × Ident)} {r : Option STy} :
      Annotation g p e → RawPath e ps → PathType g.tree (ps.map Prod.snd) r → CallReads g p given (some (r.getD .none))
  | annotated {e : Expr} {r : Option STy} :
      Annotation g p e → (∀ ps, ¬ RawPath e ps) → AnnReads g.tree (g.tree.info p).params given e r → CallReads g p given r
  | declared {ss : List Setting} {d : DeclReturn} {s : STy} : g.code p = some ss → (∀ e, ¬ Annotation g p e) →
      DeclaresReturn g p.ty p.name d → DeclType g.tree d s → CallReads g p given (some s)
  | getStep : (∀ e, ¬ Annotation g p e) →
      (∀ ss d s, g.code p = some ss → DeclaresReturn g p.ty p.name d → ¬ DeclType g.tree d s) →
      Defines g.tree 0 "get_step" p → CallReads g p given (some (.type (g.tree.expect "turf")))
  | untyped : (∀ e, ¬ Annotation g p e) →
      (∀ ss d s, g.code p = some ss → DeclaresReturn g p.ty p.name d → ¬ DeclType g.tree d s) →
      ¬ Defines g.tree 0 "get_step" p → CallReads g p given (some .none)

end Verif.Typing
