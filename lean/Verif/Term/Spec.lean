import Verif.Term.Model

/-!
# How terms are written

Each form of term with the tokens it is written with, what it means, and what may not come after it.  The expressions
in it are given as tokens and value (`ExprW`); that the parser of expressions reads them is a hypothesis (`Reads`).
-/

namespace Verif.Term

open Verif.Objtree (Ident)
open Verif.Decl (kw)

variable {E : Type}

/-- an expression: its tokens and what it means -/
structure ExprW (E : Type) where
  toks : List Tok
  val : E

/-- the parser of expressions reads it in front of `rest` -/
def ExprW.Reads (X : ExprP E) (e : ExprW E) (rest : List Tok) : Prop := X.expr (e.toks ++ rest) = .ok e.val rest

/-- ... in front of any of these tokens -/
def ExprW.ReadsAt (X : ExprP E) (e : ExprW E) (ts : List Tok) : Prop := ∀ t ∈ ts, ∀ rest, e.Reads X (t :: rest)

/-- `rest` does not begin with such a token -/
def NoHead (p : Tok → Prop) (rest : List Tok) : Prop := ∀ t, rest.head? = some t → ¬ p t

/-- entries with separators between them -/
def joined (sep : Tok) : List (List Tok) → List Tok
  | [] => []
  | [x] => x
  | x :: y :: r => x ++ sep :: joined sep (y :: r)

/-! ## Arguments: `(a, b, , c)`, where entries may be empty -/

abbrev ArgsW (E : Type) := List (Option (ExprW E))

def ArgsW.toks (a : ArgsW E) : List Tok :=
  .lparen :: (joined .comma (a.map fun o => (o.map (·.toks)).getD []) ++ [.rparen])

/-- the entries that are not empty -/
def ArgsW.val (a : ArgsW E) : List E := a.filterMap fun o => o.map (·.val)

def ArgsW.Ok (X : ExprP E) (a : ArgsW E) : Prop := ∀ e, some e ∈ a → e.ReadsAt X [.comma, .rparen]

/-- optional arguments; without them no `(` may follow -/
def optToks (a : Option (ArgsW E)) : List Tok := match a with | some a => a.toks | none => []
def optVal (a : Option (ArgsW E)) : Option (List E) := a.map ArgsW.val
def OptOk (X : ExprP E) (a : Option (ArgsW E)) (rest : List Tok) : Prop :=
  match a with
  | some a => a.Ok X
  | none => NoHead (· = .lparen) rest

/-! ## The entries of `pick`: `a` or `weight; a` -/

structure PickW (E : Type) where
  weight : Option (ExprW E)
  item : ExprW E

def PickW.toks (p : PickW E) : List Tok :=
  (match p.weight with | some w => w.toks ++ [.semi] | none => []) ++ p.item.toks

def PickW.Ok (X : ExprP E) (p : PickW E) : Prop :=
  p.item.ReadsAt X [.comma, .rparen] ∧ ∀ w, p.weight = some w → w.ReadsAt X [.semi]

def PickW.val (p : PickW E) : Option E × E := (p.weight.map (·.val), p.item.val)

/-- `pick(...)`; the last entry may have a comma after it -/
def pickToks (ps : List (PickW E)) (trailing : Bool) : List Tok :=
  .lparen :: (joined .comma (ps.map PickW.toks ++ if trailing then [[]] else []) ++ [.rparen])

/-! ## Paths: separators, each with a name or without, and perhaps variables in braces -/

def sepTok : Sep → Tok
  | .slash => .slash
  | .dot => .dot
  | .colon => .closeColon

abbrev SegW := Sep × Option Ident

def nameToks : Option Ident → List Tok
  | some i => [.ident i]
  | none => []

def SegW.toks (s : SegW) : List Tok := sepTok s.1 :: nameToks s.2

def SegW.val (s : SegW) : Option (Sep × Ident) := s.2.map (s.1, ·)

/-- the variables of a path: `{a = 1; ; b = 2}` -/
abbrev VarsW (E : Type) := List (Option (Ident × ExprW E))

def VarsW.toks (v : VarsW E) : List Tok :=
  .lbrace :: (joined .semi (v.map fun o => (o.map fun p => .ident p.1 :: .assign :: p.2.toks).getD []) ++
    [.rbrace])

def VarsW.val (v : VarsW E) : List (Ident × E) := v.filterMap fun o => o.map fun p => (p.1, p.2.val)

def VarsW.Ok (X : ExprP E) (v : VarsW E) : Prop := ∀ k e, some (k, e) ∈ v → e.ReadsAt X [.semi, .rbrace]

/-- a path from its first separator on -/
structure TailW (E : Type) where
  first : SegW
  more : List SegW
  vars : Option (VarsW E)

def TailW.toks (p : TailW E) : List Tok :=
  (p.first :: p.more).flatMap SegW.toks ++ match p.vars with | some v => v.toks | none => []

/-- names without which nothing is left get a name of their own -/
def TailW.val (parts : List (Sep × Ident)) (p : TailW E) : Prefab E :=
  ⟨match parts ++ (p.first :: p.more).filterMap SegW.val with
    | [] => [(.slash, kw "__PARSE_ERROR__")]
    | l => l,
    match p.vars with | some v => v.val | none => []⟩

/-- the path ends with a separator -/
def TailW.Open (p : TailW E) : Prop := ((p.first :: p.more).getLast (by simp)).2 = none

def TailW.Ok (X : ExprP E) (p : TailW E) (rest : List Tok) : Prop :=
  match p.vars with
  | some v => v.Ok X
  | none => NoHead (fun t => t ∈ [.lbrace, .slash, .dot, .closeColon] ∨ (p.Open ∧ ∃ i, t = .ident i)) rest

/-- `.name`, `.name` with more behind it, or a path that begins with `/` or `:` -/
inductive PathW (E : Type) where
  | dot (i : Ident)
  | dotMore (i : Ident) (p : TailW E)
  | from_ (p : TailW E)

def PathW.toks : PathW E → List Tok
  | .dot i => [.dot, .ident i]
  | .dotMore i p => .dot :: .ident i :: p.toks
  | .from_ p => p.toks

def PathW.val : PathW E → Prefab E
  | .dot i => ⟨[(.dot, i)], []⟩
  | .dotMore i p => p.val [(.dot, i)]
  | .from_ p => p.val []

def PathW.Ok (X : ExprP E) (p : PathW E) (rest : List Tok) : Prop :=
  match p with
  | .dot _ => NoHead (· ∈ [.slash, .dot, .closeColon]) rest
  | .dotMore _ p => p.Ok X rest
  | .from_ p => p.first.1 ≠ .dot ∧ p.Ok X rest

/-! ## `as` and `in` of `input` -/

/-- no type, `()`, or names -/
inductive TypeW where
  | parens
  | names (i : Ident) (more : List Ident)

def TypeW.toks : TypeW → List Tok
  | .parens => [.lparen, .rparen]
  | .names i more => .ident i :: more.flatMap fun j => [.bitOr, .ident j]

def TypeW.val : TypeW → List Ident
  | .parens => []
  | .names i more => i :: more

/-! ## Fields -/

def accTok : Acc → Tok
  | .dot => .dot
  | .colon => .closeColon
  | .safeDot => .safeDot
  | .safeColon => .safeColon
  | .scope => .scope

/-! ## Terms -/

inductive TermW (E : Type) where
  | null | procName | typeName | impliedType
  | nullParens
  | lit (l : Lit)
  | ident (i : Ident)
  /-- `list`, `alist`, `input`, `locate`, `pick` as names -/
  | wordIdent (w : Word)
  | dot
  | as_ (t : Option TypeW)
  | parens (e : ExprW E)
  | path (p : PathW E)
  | interp (s : Ident) (mid : List (Option (ExprW E) × Ident)) (last : Option (ExprW E) × Ident)
  | call (f : Ident) (a : ArgsW E)
  | selfCall (a : ArgsW E)
  | parentCall (a : ArgsW E)
  | newImplicit (a : Option (ArgsW E))
  | newPath (p : PathW E) (a : Option (ArgsW E))
  | newMini (i : Ident) (fields : List (Acc × Ident)) (a : Option (ArgsW E))
  | newDot (a : Option (ArgsW E))
  | list (alist : Bool) (a : ArgsW E)
  | input (a : ArgsW E) (ty : Option TypeW) (inList : Option (ExprW E))
  | locate (a : ArgsW E) (inList : Option (ExprW E))
  | pick (ps : List (PickW E)) (trailing : Bool)
  | dynamicCall (a b : ArgsW E)
  | externalCall (library : Option (ExprW E)) (function : ExprW E) (a : ArgsW E)
  | globalCall (f : Ident) (a : ArgsW E)
  | globalIdent (i : Ident)

/-- the words that are names if no arguments follow -/
def Word.name : Word → Option Ident
  | .list => some (kw "list")
  | .alist => some (kw "alist")
  | .input => some (kw "input")
  | .locate => some (kw "locate")
  | .pick => some (kw "pick")
  | _ => none

/-- a part of a string: `expr` and the text up to the next `[` -/
def partToks (p : Option (ExprW E) × Ident) (close : Tok) : List Tok :=
  (match p.1 with | some e => e.toks | none => []) ++ [close]

def asToks (t : Option TypeW) : List Tok := match t with | some t => .ident (kw "as") :: t.toks | none => []

def inToks (e : Option (ExprW E)) : List Tok := match e with | some e => .in_ :: e.toks | none => []

def TermW.toks : TermW E → List Tok
  | .null => [.ident (kw "null")]
  | .procName => [.ident (kw "__PROC__")]
  | .typeName => [.ident (kw "__TYPE__")]
  | .impliedType => [.ident (kw "__IMPLIED_TYPE__")]
  | .nullParens => [.lparen, .rparen]
  | .lit l => [.lit l]
  | .ident i => [.ident i]
  | .wordIdent w => [.ident (w.name.getD [])]
  | .dot => [.dot]
  | .as_ t => .ident (kw "as") :: .lparen :: ((match t with | some t => t.toks | none => []) ++ [.rparen])
  | .parens e => .lparen :: (e.toks ++ [.rparen])
  | .path p => p.toks
  | .interp s mid last =>
    .interpBegin s :: (mid.flatMap (fun p => partToks p (.interpPart p.2)) ++ partToks last (.interpEnd last.2))
  | .call f a => .ident f :: a.toks
  | .selfCall a => .dot :: a.toks
  | .parentCall a => .super :: a.toks
  | .newImplicit a => .ident (kw "new") :: optToks a
  | .newPath p a => .ident (kw "new") :: (p.toks ++ optToks a)
  | .newMini i fs a => .ident (kw "new") :: .ident i :: (fs.flatMap (fun f => [accTok f.1, .ident f.2]) ++ optToks a)
  | .newDot a => .ident (kw "new") :: .dot :: optToks a
  | .list b a => .ident (if b then kw "alist" else kw "list") :: a.toks
  | .input a t e => .ident (kw "input") :: (a.toks ++ asToks t ++ inToks e)
  | .locate a e => .ident (kw "locate") :: (a.toks ++ inToks e)
  | .pick ps t => .ident (kw "pick") :: pickToks ps t
  | .dynamicCall a b => .ident (kw "call") :: (a.toks ++ b.toks)
  | .externalCall l f a => .ident (kw "call_ext") :: .lparen ::
      ((match l with | some l => l.toks ++ [.comma] | none => []) ++ f.toks ++ .rparen :: a.toks)
  | .globalCall f a => .scope :: .ident f :: a.toks
  | .globalIdent i => [.scope, .ident i]

def TermW.val : TermW E → Term E
  | .null => .null
  | .procName => .procName
  | .typeName => .typeName
  | .impliedType => .impliedType
  | .nullParens => .null
  | .lit l => .lit l
  | .ident i => .ident i
  | .wordIdent w => .ident (w.name.getD [])
  | .dot => .ident (kw ".")
  | .as_ t => .as_ (match t with | some t => t.val | none => [])
  | .parens e => .expr e.val
  | .path p => .prefab p.val
  | .interp s mid last => .interp s ((mid ++ [last]).map fun p => (p.1.map (·.val), p.2))
  | .call f a => .call f a.val
  | .selfCall a => .selfCall a.val
  | .parentCall a => .parentCall a.val
  | .newImplicit a => .newImplicit (optVal a)
  | .newPath p a => .newPrefab p.val (optVal a)
  | .newMini i fs a => .newMini i fs (optVal a)
  | .newDot a => .newMini (kw ".") [] (optVal a)
  | .list _ a => .list a.val
  | .input a t e => .input a.val (t.map TypeW.val) (e.map (·.val))
  | .locate a e => .locate a.val (e.map (·.val))
  | .pick ps _ => .pick (ps.map PickW.val)
  | .dynamicCall a b => .dynamicCall a.val b.val
  | .externalCall l f a => .externalCall (l.map (·.val)) f.val a.val
  | .globalCall f a => .globalCall f a.val
  | .globalIdent i => .globalIdent i

/-- a name of its own, which may be taken for the left side of a `:` -/
def TermW.named : TermW E → Bool
  | .ident _ => true
  | _ => false

/-- the expression behind `in`, if there is one, is read; if not, no `in` follows -/
def InOk (X : ExprP E) (e : Option (ExprW E)) (rest : List Tok) : Prop :=
  match e with
  | some e => e.Reads X rest
  | none => NoHead (· = .in_) rest

def TermW.Ok (X : ExprP E) (rest : List Tok) : TermW E → Prop
  | .null | .procName | .typeName | .impliedType | .nullParens | .lit _ => True
  | .ident i => wordOf i = none ∧ NoHead (· = .lparen) rest
  | .wordIdent w => w.name.isSome ∧ NoHead (· = .lparen) rest
  | .dot => NoHead (fun t => t = .lparen ∨ ∃ i, t = .ident i) rest
  | .as_ _ => True
  | .parens e => e.ReadsAt X [.rparen]
  | .path p => p.Ok X rest
  | .interp _ mid last =>
    (∀ e s, (some e, s) ∈ mid → e.ReadsAt X [.interpPart s]) ∧ ∀ e, last.1 = some e → e.ReadsAt X [.interpEnd last.2]
  | .call f a => wordOf f = none ∧ a.Ok X
  | .selfCall a => a.Ok X
  | .parentCall a => a.Ok X
  | .newImplicit a => OptOk X a rest ∧
      (a = none → NoHead (fun t => t ∈ [.slash, .dot, .closeColon] ∨ ∃ i, t = .ident i) rest)
  | .newPath p a => p.Ok X (optToks a ++ rest) ∧ OptOk X a rest
  | .newMini _ fs a => (∀ f ∈ fs, f.1 ≠ .scope) ∧ OptOk X a rest ∧
      (a = none → NoHead (· ∈ [.dot, .closeColon, .safeDot, .safeColon]) rest)
  | .newDot a => OptOk X a rest ∧ (a = none → NoHead (fun t => ∃ i, t = .ident i) rest)
  | .list _ a => a.Ok X
  | .input a t e => a.Ok X ∧ InOk X e rest ∧
      NoHead (fun t => t = .ident (kw "as")) rest ∧ (t ≠ none → e = none → NoHead (· = .bitOr) rest)
  | .locate a e => a.Ok X ∧ InOk X e rest
  | .pick ps _ => ∀ p ∈ ps, p.Ok X
  | .dynamicCall a b => a.Ok X ∧ b.Ok X
  | .externalCall l f a => (∀ e, l = some e → e.ReadsAt X [.comma]) ∧ f.ReadsAt X [.rparen] ∧ a.Ok X
  | .globalCall _ a => a.Ok X
  | .globalIdent _ => NoHead (· = .lparen) rest

/-! ## What follows, and the whole -/

inductive FollowW (E : Type) where
  | inc | dec
  | index (safe : Bool) (e : ExprW E)
  | field (k : Acc) (i : Ident)
  | call (k : Acc) (i : Ident) (a : ArgsW E)

def FollowW.toks : FollowW E → List Tok
  | .inc => [.plusPlus]
  | .dec => [.minusMinus]
  | .index safe e => (if safe then .safeLBracket else .lbracket) :: (e.toks ++ [.rbracket])
  | .field k i => [accTok k, .ident i]
  | .call k i a => accTok k :: .ident i :: a.toks

/-- `x::f(...)` is the proc `f`, and the arguments are nothing -/
def FollowW.val : FollowW E → Follow E
  | .inc => .unary .postIncr
  | .dec => .unary .postDecr
  | .index safe e => .index safe e.val
  | .field .scope i => .staticField i
  | .field k i => .field k i
  | .call .scope i _ => .procReference i
  | .call k i a => .call k i a.val

/-- whether what is before may still be taken for the left side of a `:` -/
def FollowW.named (b : Bool) : FollowW E → Bool
  | .inc | .dec | .field .. => b
  | _ => false

/-- in `a ? b : c` the colon belongs to a name only if there is one before it -/
def FollowW.Ok (X : ExprP E) (inTernary b : Bool) (next : List Tok) : FollowW E → Prop
  | .inc | .dec => True
  | .index _ e => e.ReadsAt X [.rbracket]
  | .field k _ => (k = .colon → inTernary = true → b = true) ∧ NoHead (· = .lparen) next
  | .call k _ a => (k = .colon → inTernary = true → b = true) ∧ a.Ok X

def FollowsOk (X : ExprP E) (inTernary : Bool) : Bool → List (FollowW E) → List Tok → Prop
  | b, [], rest => NoHead (fun t => t ∈ [.plusPlus, .minusMinus, .lbracket, .safeLBracket, .dot, .safeDot, .safeColon,
      .scope] ∨ (t = .closeColon ∧ (inTernary = true → b = true))) rest
  | b, f :: fs, rest => f.Ok X inTernary b (fs.flatMap FollowW.toks ++ rest) ∧ FollowsOk X inTernary (f.named b) fs rest

def opTok : Un → Tok
  | .neg => .sub
  | .not => .not
  | .bitNot => .bitNot
  | .preIncr => .plusPlus
  | .preDecr => .minusMinus
  | .ref => .bitAnd
  | .deref => .mul
  | .postIncr => .plusPlus
  | .postDecr => .minusMinus

structure GroupW (E : Type) where
  ops : List Un
  term : TermW E
  follow : List (FollowW E)

def GroupW.toks (g : GroupW E) : List Tok := g.ops.map opTok ++ g.term.toks ++ g.follow.flatMap FollowW.toks

/-- prefix operators come last, the innermost first -/
def GroupW.val (g : GroupW E) : Base E := ⟨g.term.val, g.follow.map FollowW.val ++ g.ops.reverse.map .unary⟩

def GroupW.Ok (X : ExprP E) (inTernary : Bool) (g : GroupW E) (rest : List Tok) : Prop :=
  (∀ u ∈ g.ops, u ≠ .postIncr ∧ u ≠ .postDecr) ∧
  g.term.Ok X (g.follow.flatMap FollowW.toks ++ rest) ∧
  FollowsOk X inTernary g.term.named g.follow rest

end Verif.Term
