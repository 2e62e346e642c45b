import Verif.Decl.Model

/-!
# Model of the parser of terms (`crates/dreammaker/src/parser.rs`, `group` and `term` and all they call)

What expressions are made of below the operators: literals, variables, calls of all kinds, paths, `new`, `list`,
`input`, `locate`, `pick`, strings with expressions inside, and what may follow them.

* The expressions inside (arguments, indices, ...) are read by a parameter (`ExprP`): `expression` of the code, of which
  the operators are modelled in `Verif.Parse`.
* Messages, locations and annotations are not modelled; input types are the names in them (checked in `Verif.Decl`).
* Recursion has fuel; `R.fuel` does not arise, see `group_ends`.
-/

namespace Verif.Term

open Verif.Objtree (Ident)
open Verif.Decl (kw)

/-- `PathOp` (ast.rs) -/
inductive Sep where
  | slash | dot | colon
deriving DecidableEq

/-- `PropertyAccessKind` (ast.rs) -/
inductive Acc where
  | dot | colon | safeDot | safeColon | scope
deriving DecidableEq

/-- `UnaryOp` (ast.rs) -/
inductive Un where
  | neg | not | bitNot | preIncr | preDecr | ref | deref | postIncr | postDecr
deriving DecidableEq

/-- literal tokens; texts are identifiers, an `f32` is its bits -/
inductive Lit where
  | int (n : Int) | float (bits : Nat) | str (s : Ident) | res (s : Ident)
deriving DecidableEq

/-- tokens, those that terms look at; all others are `other` -/
inductive Tok where
  | ident (s : Ident) | lit (l : Lit)
  | slash | dot | closeColon | scope | safeDot | safeColon | super
  | lparen | rparen | lbracket | safeLBracket | rbracket | lbrace | rbrace
  | comma | semi | assign | in_ | bitOr
  | plusPlus | minusMinus | sub | not | bitNot | bitAnd | mul
  | interpBegin (s : Ident) | interpPart (s : Ident) | interpEnd (s : Ident)
  | other (n : Nat)
deriving DecidableEq

/-- `Prefab` (ast.rs) -/
structure Prefab (E : Type) where
  path : List (Sep × Ident)
  vars : List (Ident × E)

/-- `Term` (ast.rs:1121-1235); `DynamicCall` and so on in the order of the code -/
inductive Term (E : Type) where
  | null
  | lit (l : Lit)
  | ident (s : Ident)
  | as_ (names : List Ident)
  | procName | typeName | impliedType
  | expr (e : E)
  | prefab (p : Prefab E)
  | interp (first : Ident) (parts : List (Option E × Ident))
  | call (f : Ident) (args : List E)
  | selfCall (args : List E)
  | parentCall (args : List E)
  | newImplicit (args : Option (List E))
  | newPrefab (p : Prefab E) (args : Option (List E))
  | newMini (i : Ident) (fields : List (Acc × Ident)) (args : Option (List E))
  | list (args : List E)
  | input (args : List E) (ty : Option (List Ident)) (inList : Option E)
  | locate (args : List E) (inList : Option E)
  | pick (items : List (Option E × E))
  | dynamicCall (a b : List E)
  | externalCall (library : Option E) (function : E) (args : List E)
  | globalCall (f : Ident) (args : List E)
  | globalIdent (s : Ident)

/-- `Follow` (ast.rs:1318-1337) -/
inductive Follow (E : Type) where
  | index (safe : Bool) (e : E)
  | field (k : Acc) (s : Ident)
  | call (k : Acc) (s : Ident) (args : List E)
  | unary (u : Un)
  | staticField (s : Ident)
  | procReference (s : Ident)

/-- `Expression::Base` (ast.rs) -/
structure Base (E : Type) where
  term : Term E
  follow : List (Follow E)

/-! ## Results -/

/-- `Status` (parser.rs:18-21) -/
inductive R (A : Type) where
  | ok (a : A) (rest : List Tok)
  | nothing
  | err
  | fuel

variable {A B E : Type}

/-- `require!` (parser.rs:35-40) -/
def R.need (r : R A) (k : A → List Tok → R B) : R B :=
  match r with
  | .ok a rest => k a rest
  | .nothing => .err
  | .err => .err
  | .fuel => .fuel

/-- `leading!` (parser.rs:42-49) -/
def R.lead (r : R A) (k : A → List Tok → R B) : R B :=
  match r with
  | .ok a rest => k a rest
  | .nothing => .nothing
  | .err => .err
  | .fuel => .fuel

/-- `?` alone: there may be none; `ts` are the tokens before -/
def R.maybe (r : R A) (ts : List Tok) (k : Option A → List Tok → R B) : R B :=
  match r with
  | .ok a rest => k (some a) rest
  | .nothing => k none ts
  | .err => .err
  | .fuel => .fuel

def R.map (f : A → B) : R A → R B
  | .ok a rest => .ok (f a) rest
  | .nothing => .nothing
  | .err => .err
  | .fuel => .fuel

/-- tokens with which no expression begins -/
def stops : Tok → Bool
  | .rparen | .rbracket | .rbrace | .comma | .semi | .interpPart _ | .interpEnd _ | .assign | .in_ => true
  | _ => false

/-- the parser of expressions -/
structure ExprP (E : Type) where
  expr : List Tok → R E
  takes : ∀ ts e rest, expr ts = .ok e rest → rest.length < ts.length
  ends : ∀ ts, expr ts ≠ .fuel
  stop : ∀ t rest, stops t = true → expr (t :: rest) = .nothing

/-! ## Lists -/

/-- `separated` (parser.rs:2818-2846); empty entries give nothing, as all callers drop them -/
def separated (sep close : Tok) (empty : Bool) (f : List Tok → R A) : Nat → Bool → List Tok → R (List A)
  | 0, _, _ => .fuel
  | n + 1, legal, ts =>
    if ts.head? = some close then .ok [] ts.tail
    else if ts.head? = some sep then
      if legal || empty then separated sep close empty f n false ts.tail else .err
    else if legal then .err
    else (f ts).need fun a r => (separated sep close empty f n true r).map (a :: ·)

/-- `arguments` (parser.rs:2771-2799) -/
def args (X : ExprP E) : List Tok → R (List E)
  | .lparen :: r => separated .comma .rparen true X.expr (r.length + 1) false r
  | _ => .nothing

/-- an entry of `pick` (parser.rs:2806-2811) -/
def pickEntry (X : ExprP E) (ts : List Tok) : R (Option E × E) :=
  (X.expr ts).lead fun a r =>
    match r with
    | .semi :: r' => (X.expr r').need fun b r'' => .ok (some a, b) r''
    | _ => .ok (none, a) r

/-- `pick_arguments` (parser.rs:2801-2816) -/
def pickArgs (X : ExprP E) : List Tok → R (List (Option E × E))
  | .lparen :: r => separated .comma .rparen false (pickEntry X) (r.length + 1) false r
  | _ => .nothing

/-! ## Paths -/

/-- `path_separator` (parser.rs:2074-2080) -/
def sepOf : Tok → Option Sep
  | .slash => some .slash
  | .dot => some .dot
  | .closeColon => some .colon
  | _ => none

/-- the elements of a path, after a separator if `p` is one (parser.rs:2099-2120); empty ones are ignored -/
def segs : Option Sep → List Tok → List (Sep × Ident) × List Tok
  | _, [] => ([], [])
  | p, t :: r =>
    match p, t with
    | some s, .ident i => ((s, i) :: (segs none r).1, (segs none r).2)
    | _, t =>
      match sepOf t with
      | some s => segs (some s) r
      | none => ([], t :: r)

/-- a variable of a prefab (parser.rs:2134-2140) -/
def varEntry (X : ExprP E) : List Tok → R (Ident × E)
  | .ident k :: .assign :: r => (X.expr r).need fun e r => .ok (k, e) r
  | _ => .err

/-- the variables of a prefab, if there are any (parser.rs:2129-2143) -/
def vars (X : ExprP E) (path : List (Sep × Ident)) : List Tok → R (Prefab E)
  | .lbrace :: r => (separated .semi .rbrace true (varEntry X) (r.length + 1) false r).map fun vs => ⟨path, vs⟩
  | ts => .ok ⟨path, []⟩ ts

/-- `prefab_ex` (parser.rs:2088-2149) -/
def prefabEx (X : ExprP E) (parts : List (Sep × Ident)) (ts : List Tok) : R (Prefab E) :=
  match ts.head?.bind sepOf with
  | some s =>
    let p := parts ++ (segs (some s) ts.tail).1
    vars X (if p.isEmpty then [(.slash, kw "__PARSE_ERROR__")] else p) (segs (some s) ts.tail).2
  | none => if parts.isEmpty then .nothing else .ok ⟨parts, []⟩ ts

/-! ## Terms -/

/-- the punctuation of `field` (parser.rs:2736-2743), where the colon is always allowed -/
def fieldKind : Tok → Option Acc
  | .dot => some .dot
  | .closeColon => some .colon
  | .safeDot => some .safeDot
  | .safeColon => some .safeColon
  | _ => none

/-- the fields after `new x`, after a punctuation if `p` is one (parser.rs:2400-2404, 2734-2768); a missing name is
reported, and empty -/
def fields : Option Acc → List Tok → List (Acc × Ident) × List Tok
  | none, [] => ([], [])
  | some k, [] => ([(k, [])], [])
  | p, t :: r =>
    match p, t with
    | some k, .ident i => ((k, i) :: (fields none r).1, (fields none r).2)
    | some k, t =>
      match fieldKind t with
      | some k' => ((k, []) :: (fields (some k') r).1, (fields (some k') r).2)
      | none => ([(k, [])], t :: r)
    | none, t =>
      match fieldKind t with
      | some k' => fields (some k') r
      | none => ([], t :: r)

/-- more names of an input type (parser.rs:1458-1467) -/
def orNames : List Tok → R (List Ident)
  | .bitOr :: .ident s :: r => (orNames r).map (s :: ·)
  | .bitOr :: _ => .err
  | ts => .ok [] ts

/-- `input_type` (parser.rs:1442-1469) -/
def inputType : List Tok → R (List Ident)
  | .lparen :: .rparen :: r => .ok [] r
  | .lparen :: _ => .err
  | .ident s :: r => (orNames r).map (s :: ·)
  | _ => .nothing

/-- an `as` clause -/
def asClause : List Tok → R (List Ident)
  | .ident s :: r => if s = kw "as" then (inputType r).need .ok else .nothing
  | _ => .nothing

/-- `input_specifier` (parser.rs:1390-1413) -/
def inputSpec (X : ExprP E) (ts : List Tok) : R (Option (List Ident) × Option E) :=
  (asClause ts).maybe ts fun ty r =>
    match r with
    | .in_ :: r => (X.expr r).need fun e r => (asClause r).maybe r fun _ r => .ok (ty, some e) r
    | _ => .ok (ty, none) r

/-- the expressions and texts in a string (parser.rs:2622-2637) -/
def interpLoop (X : ExprP E) : Nat → List Tok → R (List (Option E × Ident))
  | 0, _ => .fuel
  | n + 1, ts =>
    (X.expr ts).maybe ts fun e r =>
      match r with
      | .interpPart s :: r => (interpLoop X n r).map ((e, s) :: ·)
      | .interpEnd s :: r => .ok [(e, s)] r
      | _ => .err

/-- the words that begin a term of their own -/
inductive Word where
  | new | list | alist | call | callExt | input | locate | pick | null | as_ | procName | typeName | impliedType
deriving DecidableEq

def wordOf (i : Ident) : Option Word :=
  if i = kw "new" then some .new
  else if i = kw "list" then some .list
  else if i = kw "alist" then some .alist
  else if i = kw "call" then some .call
  else if i = kw "call_ext" then some .callExt
  else if i = kw "input" then some .input
  else if i = kw "locate" then some .locate
  else if i = kw "pick" then some .pick
  else if i = kw "null" then some .null
  else if i = kw "as" then some .as_
  else if i = kw "__PROC__" then some .procName
  else if i = kw "__TYPE__" then some .typeName
  else if i = kw "__IMPLIED_TYPE__" then some .impliedType
  else none

/-- `new` (parser.rs:2368-2429) -/
def newTerm (X : ExprP E) (ts : List Tok) : R (Term E) :=
  match ts with
  | .dot :: .ident i :: r =>
    (prefabEx X [(.dot, i)] r).need fun p r => (args X r).maybe r fun a r => .ok (.newPrefab p a) r
  | .dot :: r => (args X r).maybe r fun a r => .ok (.newMini (kw ".") [] a) r
  | .ident i :: r => (args X (fields none r).2).maybe (fields none r).2 fun a r' => .ok (.newMini i (fields none r).1 a) r'
  | _ => (prefabEx X [] ts).maybe ts fun p r =>
    (args X r).maybe r fun a r =>
      match p with
      | some p => .ok (.newPrefab p a) r
      | none => .ok (.newImplicit a) r

/-- `call_ext` (parser.rs:2454-2479) -/
def callExt (X : ExprP E) : List Tok → R (Term E)
  | .lparen :: r => (X.expr r).need fun first r =>
    match r with
    | .comma :: r => (X.expr r).need fun second r =>
      match r with
      | .rparen :: r => (args X r).need fun a r => .ok (.externalCall (some first) second a) r
      | _ => .err
    | .rparen :: r => (args X r).need fun a r => .ok (.externalCall none first a) r
    | _ => .err
  | _ => .err

/-- the terms that begin with a word of their own (parser.rs:2366-2551) -/
def wordTerm (X : ExprP E) (i : Ident) (ts : List Tok) : Word → R (Term E)
  | .new => newTerm X ts
  | .list | .alist => (args X ts).maybe ts fun a r =>
    match a with
    | some a => .ok (.list a) r
    | none => .ok (.ident i) r
  | .call => (args X ts).need fun a r => (args X r).need fun b r => .ok (.dynamicCall a b) r
  | .callExt => callExt X ts
  | .input => (args X ts).maybe ts fun a r =>
    match a with
    | some a => (inputSpec X r).need fun p r => .ok (.input a p.1 p.2) r
    | none => .ok (.ident i) r
  | .locate => (args X ts).maybe ts fun a r =>
    match a with
    | some a =>
      match r with
      | .in_ :: r => (X.expr r).need fun e r => .ok (.locate a (some e)) r
      | _ => .ok (.locate a none) r
    | none => .ok (.ident i) r
  | .pick => (pickArgs X ts).maybe ts fun a r =>
    match a with
    | some a => .ok (.pick a) r
    | none => .ok (.ident i) r
  | .null => .ok .null ts
  | .as_ =>
    match ts with
    | .lparen :: r => (inputType r).maybe r fun n r =>
      match r with
      | .rparen :: r => .ok (.as_ (n.getD [])) r
      | _ => .err
    | _ => .err
  | .procName => .ok .procName ts
  | .typeName => .ok .typeName ts
  | .impliedType => .ok .impliedType ts

/-- `term` (parser.rs:2356-2648); the flag says whether `belongs_to` has something in it afterwards -/
def term (X : ExprP E) : List Tok → R (Term E × Bool)
  | .ident i :: ts =>
    match wordOf i with
    | some w => (wordTerm X i ts w).map (·, false)
    | none => (args X ts).maybe ts fun a r =>
      match a with
      | some a => .ok (.call i a, false) r
      | none => .ok (.ident i, true) r
  | .super :: ts => (args X ts).need fun a r => .ok (.parentCall a, false) r
  | .dot :: .ident i :: ts => (prefabEx X [(.dot, i)] ts).need fun p r => .ok (.prefab p, false) r
  | .dot :: ts => (args X ts).maybe ts fun a r =>
    match a with
    | some a => .ok (.selfCall a, false) r
    | none => .ok (.ident (kw "."), false) r
  | .scope :: .ident i :: ts => (args X ts).maybe ts fun a r =>
    match a with
    | some a => .ok (.globalCall i a, false) r
    | none => .ok (.globalIdent i, false) r
  | .scope :: _ => .err
  | .lit l :: ts => .ok (.lit l, false) ts
  | .lparen :: .rparen :: ts => .ok (.null, false) ts
  | .lparen :: ts => (X.expr ts).need fun e r =>
    match r with
    | .rparen :: r => .ok (.expr e, false) r
    | _ => .err
  | .interpBegin s :: ts => (interpLoop X (ts.length + 1) ts).map fun p => (.interp s p, false)
  | .slash :: ts => (prefabEx X [] (.slash :: ts)).need fun p r => .ok (.prefab p, false) r
  | .closeColon :: ts => (prefabEx X [] (.closeColon :: ts)).need fun p r => .ok (.prefab p, false) r
  | _ => .nothing

/-! ## What follows a term -/

/-- the punctuation of a field or call (parser.rs:2677-2685) -/
def accOf (belongs inTernary : Bool) : Tok → Option Acc
  | .dot => some .dot
  | .closeColon => if belongs || !inTernary then some .colon else none
  | .safeDot => some .safeDot
  | .safeColon => some .safeColon
  | .scope => some .scope
  | _ => none

/-- a field or call, after the punctuation (parser.rs:2687-2730) -/
def access (X : ExprP E) (belongs : Bool) (k : Acc) (i : Ident) (ts : List Tok) : R (Follow E × Bool) :=
  (args X ts).maybe ts fun a r =>
    match a with
    | some a => .ok (if k = .scope then .procReference i else .call k i a, false) r
    | none => .ok (if k = .scope then .staticField i else .field k i, belongs) r

/-- `list_access` and `follow` (parser.rs:2650-2730); a missing name is reported, and empty -/
def follow (X : ExprP E) (belongs inTernary : Bool) (ts : List Tok) : R (Follow E × Bool) :=
  match ts with
  | [] => .nothing
  | t :: r =>
    if t = .lbracket ∨ t = .safeLBracket then
      (X.expr r).need fun e r =>
        match r with
        | .rbracket :: r => .ok (.index (t = .safeLBracket) e, false) r
        | _ => .err
    else
      match accOf belongs inTernary t with
      | none => .nothing
      | some k =>
        match r with
        | .ident i :: r => access X belongs k i r
        | _ => access X belongs k [] r

/-- the loop of `group` over what follows (parser.rs:2329-2341) -/
def follows (X : ExprP E) (inTernary : Bool) : Nat → Bool → List Tok → R (List (Follow E))
  | 0, _, _ => .fuel
  | n + 1, b, ts =>
    if ts.head? = some .plusPlus then (follows X inTernary n b ts.tail).map (.unary .postIncr :: ·)
    else if ts.head? = some .minusMinus then (follows X inTernary n b ts.tail).map (.unary .postDecr :: ·)
    else (follow X b inTernary ts).maybe ts fun p r =>
      match p with
      | some p => (follows X inTernary n p.2 r).map (p.1 :: ·)
      | none => .ok [] r

/-- prefix operators (parser.rs:2303-2316) -/
def prefixOf : Tok → Option Un
  | .sub => some .neg
  | .not => some .not
  | .bitNot => some .bitNot
  | .plusPlus => some .preIncr
  | .minusMinus => some .preDecr
  | .bitAnd => some .ref
  | .mul => some .deref
  | _ => none

def prefixes : List Tok → List Un × List Tok
  | [] => ([], [])
  | t :: r =>
    match prefixOf t with
    | some u => (u :: (prefixes r).1, (prefixes r).2)
    | none => ([], t :: r)

/-- `group` (parser.rs:2301-2354) -/
def group (X : ExprP E) (inTernary : Bool) (ts : List Tok) : R (Base E) :=
  let ops := (prefixes ts).1
  let k := fun (p : Term E × Bool) (r : List Tok) =>
    (follows X inTernary (r.length + 1) p.2 r).map fun fs => (⟨p.1, fs ++ ops.reverse.map .unary⟩ : Base E)
  if ops = [] then (term X (prefixes ts).2).lead k else (term X (prefixes ts).2).need k

end Verif.Term
