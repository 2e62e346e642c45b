import Verif.Preproc.Expand

/-!
# What function-like macros mean

A specification of `#define` lines, of the arguments of a macro call, and of expansion by
rewriting of token lists.  It does not mention the include stack.
-/

namespace Verif.Preproc

open Verif.Context (Location)
open Verif.Lexer (Tok Punct DocTarget CommentKind)

/-! ## Arguments -/

/-- tokens between parentheses: balanced, commas allowed -/
inductive Inner : List Tok → Prop
  | nil : Inner []
  | tok {t : Tok} {ts : List Tok} : t ≠ lparen → t ≠ rparen → Inner ts → Inner (t :: ts)
  | group {a ts : List Tok} : Inner a → Inner ts → Inner (lparen :: a ++ rparen :: ts)

/-- one argument: balanced, commas only between parentheses -/
inductive Arg : List Tok → Prop
  | nil : Arg []
  | tok {t : Tok} {ts : List Tok} : t ≠ lparen → t ≠ rparen → t ≠ comma → Arg ts → Arg (t :: ts)
  | group {a ts : List Tok} : Inner a → Arg ts → Arg (lparen :: a ++ rparen :: ts)

/-- what the parameters stand for: with `...`, the last one is the rest of the arguments with the
commas between them, and may be missing -/
inductive Bind : List Name → Bool → List (List Tok) → List (List Tok) → Prop
  | fixed {ps : List Name} {args : List (List Tok)} : args.length = ps.length → Bind ps false args args
  | rest {ps : List Name} {p : Name} {args more : List (List Tok)} : args.length = ps.length →
      more ≠ [] → Bind (ps ++ [p]) true (args ++ more) (args ++ [List.intercalate [comma] more])
  | missing {ps : List Name} {p : Name} {args : List (List Tok)} : args.length = ps.length →
      Bind (ps ++ [p]) true args (args ++ [[]])

/-! ## Bodies -/

/-- the argument a name stands for -/
def bound (params : List Name) (args : List (List Tok)) (n : Name) : Option (List Tok) :=
  (params.zip args).lookup n

/-- the replacement of one token of a body -/
def rep (b : Name → Option (List Tok)) : Tok → List Tok
  | .ident n ws => (b n).getD [.ident n ws]
  | t => [t]

/-- `l ## t`: if `l` ends in a name and `t` is, or stands for something that starts with, a name (or,
for an argument, a number), they become one name; otherwise they stand side by side -/
inductive Glue (b : Name → Option (List Tok)) : List Tok → Tok → List Tok → Prop
  | name {l : List Tok} {x y : Name} {wx wy : Bool} : b y = none →
      Glue b (l ++ [.ident x wx]) (.ident y wy) (l ++ [.ident (x ++ y) wy])
  | nameArg {l r : List Tok} {x y p : Name} {wx wy wp : Bool} : b p = some (.ident y wy :: r) →
      Glue b (l ++ [.ident x wx]) (.ident p wp) (l ++ .ident (x ++ y) wy :: r)
  | intArg {l r : List Tok} {x p : Name} {wx wp : Bool} {v : Nat} : b p = some (.int v :: r) →
      Glue b (l ++ [.ident x wx]) (.ident p wp) (l ++ .ident (x ++ (Nat.repr v).toList) wp :: r)
  | afterOther {l : List Tok} {t : Tok} : (∀ l' x wx, l ≠ l' ++ [.ident x wx]) →
      Glue b l t (l ++ rep b t)
  | beforeOther {l : List Tok} {t : Tok} : (∀ y wy, t ≠ .ident y wy) → Glue b l t (l ++ rep b t)
  | beforeArg {l a : List Tok} {p : Name} {wp : Bool} : b p = some a →
      (∀ y wy r, a ≠ .ident y wy :: r) → (∀ v r, a ≠ .int v :: r) → Glue b l (.ident p wp) (l ++ a)

/-- tokens joined by `##` -/
inductive Word (b : Name → Option (List Tok)) : List Tok → List Tok → Prop
  | one {t : Tok} : t ≠ hash → t ≠ tokenPaste → Word b [t] (rep b t)
  | glue {ts l l' : List Tok} {t : Tok} : Word b ts l → l ≠ [] → t ≠ hash → t ≠ tokenPaste →
      Glue b l t l' → Word b (ts ++ [tokenPaste, t]) l'

/-- a body: words, and `#p` for the text of an argument, its tokens separated by spaces -/
inductive Body (display : Tok → List Char) (b : Name → Option (List Tok)) :
    List Tok → List Tok → Prop
  | nil : Body display b [] []
  | word {w l ts out : List Tok} : Word b w l → Body display b ts out →
      Body display b (w ++ ts) (l ++ out)
  | text {p : Name} {ws : Bool} {a ts out : List Tok} : b p = some a → (∀ t ∈ a, display t ≠ []) →
      Body display b ts out →
      Body display b (hash :: .ident p ws :: ts)
        (.str (List.intercalate [' '] (a.map display)) :: out)

/-! ## Text -/

/-- a token that stands for itself: no directive, doc comment or interpolation, not a macro -/
structure Plain (defs : DefineMap) (t : Tok) : Prop where
  hash : t ≠ hash
  doc : ∀ k g x, t ≠ .doc k g x
  ibegin : ∀ x, t ≠ .interpBegin x
  iend : ∀ x, t ≠ .interpEnd x
  name : ∀ n ws, t = .ident n ws → defs.get n = none

/-- `Expands env defs file d ts out`: the text `ts` expands to `out` with at most `d` nested
expansions.  All tokens of an expansion get the location of the use. -/
inductive Expands (env : Env) (defs : DefineMap) (file : List Char) :
    Nat → List LTok → List LTok → Prop
  | nil {d : Nat} : Expands env defs file d [] []
  | plain {d : Nat} {t : LTok} {ts out : List LTok} : Plain defs t.tok →
      Expands env defs file d ts out → Expands env defs file d (t :: ts) (leaf file t :: out)
  | object {d : Nat} {l ld : Location} {n : Name} {ws : Bool} {su : List Tok} {ts o out : List LTok} :
      n ≠ "__FILE__".toList → n ≠ "__LINE__".toList → defs.get n = some (ld, .constant su) →
      Expands env defs file d (su.map (LTok.mk l)) o → Expands env defs file (d + 1) ts out →
      Expands env defs file (d + 1) (⟨l, .ident n ws⟩ :: ts) (o ++ out)
  | call {d : Nat} {l ld lp lr : Location} {n : Name} {ws v : Bool} {ps : List Name}
      {su body : List Tok} {as : List LTok} {args bnd : List (List Tok)} {ts o out : List LTok} :
      n ≠ "__FILE__".toList → n ≠ "__LINE__".toList → defs.get n = some (ld, .function ps su v) →
      args ≠ [] → (∀ a ∈ args, Arg a) → as.map LTok.tok = List.intercalate [comma] args →
      Bind ps v args bnd → Body env.display (bound ps bnd) su body →
      Expands env defs file d (body.map (LTok.mk l)) o → Expands env defs file (d + 1) ts out →
      Expands env defs file (d + 1)
        (⟨l, .ident n ws⟩ :: ⟨lp, lparen⟩ :: (as ++ ⟨lr, rparen⟩ :: ts)) (o ++ out)
  | bare {d : Nat} {l ld lu : Location} {n : Name} {ws v : Bool} {ps : List Name} {su : List Tok}
      {u : Tok} {ts out : List LTok} :
      n ≠ "__FILE__".toList → n ≠ "__LINE__".toList → defs.get n = some (ld, .function ps su v) →
      u ≠ lparen → (∀ x, u ≠ .interpBegin x) → (∀ x, u ≠ .interpEnd x) →
      Expands env defs file (d + 1) ts out →
      Expands env defs file (d + 1) (⟨l, .ident n ws⟩ :: ⟨lu, u⟩ :: ts)
        (⟨l, .ident n false⟩ :: ⟨l, u⟩ :: out)

/-! ## Definitions -/

/-- the parameters between the parentheses of a `#define` line, and whether the last is variadic -/
inductive Params : List Tok → List Name → Bool → Prop
  | one {p : Name} {ws : Bool} : Params [.ident p ws] [p] false
  | dots : Params [ellipsis] ["__VA_ARGS__".toList] true
  | oneDots {p : Name} {ws : Bool} : Params [.ident p ws, ellipsis] [p] true
  | more {p : Name} {ws v : Bool} {ts : List Tok} {ps : List Name} : Params ts ps v →
      Params (.ident p ws :: comma :: ts) (p :: ps) v

/-- a doc comment -/
def isDoc : Tok → Bool
  | .doc _ _ _ => true
  | _ => false

/-- the part of a `#define` line after `#define`, without the end of line: a name directly followed by
`(` has parameters; doc comments are not part of the body -/
inductive DefineLine : List Tok → Name → Define → Prop
  | object {n : Name} {ws : Bool} {ts : List Tok} : (ws = false → ts.head? ≠ some lparen) →
      (∀ t ∈ ts, t ≠ newline) →
      DefineLine (.ident n ws :: ts) n (.constant (ts.filter fun t => !isDoc t))
  | function {n : Name} {hd ts : List Tok} {ps : List Name} {v : Bool} : Params hd ps v →
      (∀ t ∈ ts, t ≠ newline) →
      DefineLine (.ident n false :: lparen :: hd ++ rparen :: ts) n
        (.function ps (ts.filter fun t => !isDoc t) v)

end Verif.Preproc
