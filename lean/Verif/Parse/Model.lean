import Mathlib.Data.List.Basic

/-!
# Model of the expression parser (`crates/dreammaker/src/parser.rs`, operators)

* A token `atom` stands for a complete term without operators in it: a literal, a variable, a call, a path, `new`.
  A `/` where a term is expected starts a path, so it is part of such an atom.
* Of what may follow a term, `++`, `--` and the index are modelled; field access and calls belong to the atom.
  `in_ternary` only decides whether `:` without spaces is a field access, so it is not modelled: `colon` is `:`
  which is not.
* The warnings "missing else arm" and "() should be replaced with null" are recorded in `warned`.  Locations,
  annotations and the text of errors are not modelled.
* The recursion has fuel; `PErr.fuel` does not arise, see `parse_total`.
-/

namespace Verif.Parse

/-- `UnaryOp` (ast.rs:28-38) -/
inductive UnaryOp where
  | neg | not | bitNot | preIncr | postIncr | preDecr | postDecr | reference | dereference
deriving DecidableEq

/-- `BinaryOp` (ast.rs:116-142) -/
inductive BinaryOp where
  | add | sub | mul | div | pow | mod | floatMod | eq | notEq | less | greater | lessEq | greaterEq
  | lessOrGreater | equiv | notEquiv | bitAnd | bitXor | bitOr | lShift | rShift | and | or | in_ | to
deriving DecidableEq

/-- `AssignOp` (ast.rs:191-209) -/
inductive AssignOp where
  | assign | addAssign | subAssign | mulAssign | divAssign | modAssign | floatModAssign | bitAndAssign
  | bitOrAssign | bitXorAssign | lShiftAssign | rShiftAssign | assignInto | andAssign | orAssign
deriving DecidableEq

/-- the punctuation in the table of operators (parser.rs:188-279) -/
inductive Punct where
  | pow | mul | slash | mod | floatMod | add | sub | less | greater | lessEq | greaterEq | lessOrGreater
  | lShift | rShift | eq | notEq | lessGreater | equiv | notEquiv | bitAnd | bitXor | bitOr | and | or
  | questionMark
  | assign | addAssign | subAssign | mulAssign | divAssign | modAssign | floatModAssign | bitAndAssign
  | bitOrAssign | bitXorAssign | lShiftAssign | rShiftAssign | assignInto | andAssign | orAssign
  | in_
deriving DecidableEq

/-- `Op` (parser.rs:141-145) -/
inductive Op where
  | binary (o : BinaryOp)
  | assign (o : AssignOp)
  | ternary
deriving DecidableEq

/-- `Strength` in the order of the table (parser.rs:175-177): 0 is `Pow`, 11 is `Conditional`, 12 is `Assign`, 13 is
`In`; a smaller number binds tighter -/
def Punct.strength : Punct → Nat
  | .pow => 0
  | .mul | .slash | .mod | .floatMod => 1
  | .add | .sub => 2
  | .less | .greater | .lessEq | .greaterEq | .lessOrGreater => 3
  | .lShift | .rShift => 4
  | .eq | .notEq | .lessGreater | .equiv | .notEquiv => 5
  | .bitAnd => 6
  | .bitXor => 7
  | .bitOr => 8
  | .and => 9
  | .or => 10
  | .questionMark => 11
  | .assign | .addAssign | .subAssign | .mulAssign | .divAssign | .modAssign | .floatModAssign | .bitAndAssign
  | .bitOrAssign | .bitXorAssign | .lShiftAssign | .rShiftAssign | .assignInto | .andAssign | .orAssign => 12
  | .in_ => 13

/-- the operator of a punctuation (parser.rs:188-279) -/
def Punct.oper : Punct → Op
  | .pow => .binary .pow
  | .mul => .binary .mul
  | .slash => .binary .div
  | .mod => .binary .mod
  | .floatMod => .binary .floatMod
  | .add => .binary .add
  | .sub => .binary .sub
  | .less => .binary .less
  | .greater => .binary .greater
  | .lessEq => .binary .lessEq
  | .greaterEq => .binary .greaterEq
  | .lessOrGreater => .binary .lessOrGreater
  | .lShift => .binary .lShift
  | .rShift => .binary .rShift
  | .eq => .binary .eq
  | .notEq => .binary .notEq
  | .lessGreater => .binary .notEq
  | .equiv => .binary .equiv
  | .notEquiv => .binary .notEquiv
  | .bitAnd => .binary .bitAnd
  | .bitXor => .binary .bitXor
  | .bitOr => .binary .bitOr
  | .and => .binary .and
  | .or => .binary .or
  | .questionMark => .ternary
  | .assign => .assign .assign
  | .addAssign => .assign .addAssign
  | .subAssign => .assign .subAssign
  | .mulAssign => .assign .mulAssign
  | .divAssign => .assign .divAssign
  | .modAssign => .assign .modAssign
  | .floatModAssign => .assign .floatModAssign
  | .bitAndAssign => .assign .bitAndAssign
  | .bitOrAssign => .assign .bitOrAssign
  | .bitXorAssign => .assign .bitXorAssign
  | .lShiftAssign => .assign .lShiftAssign
  | .rShiftAssign => .assign .rShiftAssign
  | .assignInto => .assign .assignInto
  | .andAssign => .assign .andAssign
  | .orAssign => .assign .orAssign
  | .in_ => .binary .in_

/-- `Strength::right_binding` (parser.rs:281-285) -/
def rightBinding (s : Nat) : Bool := s == 12

inductive Tok where
  | atom (a : Nat)
  | op (p : Punct)
  | not
  | bitNot
  | plusPlus
  | minusMinus
  | lparen
  | rparen
  | lbracket (safe : Bool)
  | rbracket
  | colon
  | to
  | other (n : Nat)
deriving DecidableEq

mutual
/-- `Expression` (ast.rs:958-994) -/
inductive Expr where
  | base (term : Term) (follow : List Follow)
  | binary (op : BinaryOp) (lhs rhs : Expr)
  | assign (op : AssignOp) (lhs rhs : Expr)
  | ternary (cond if_ else_ : Expr)
/-- `Term` (ast.rs:1121-1207) -/
inductive Term where
  | null
  | atom (a : Nat)
  /-- the variable `to` -/
  | to
  | expr (e : Expr)
/-- `Follow` (ast.rs:1318-1337) -/
inductive Follow where
  | unary (op : UnaryOp)
  | index (safe : Bool) (e : Expr)
end

inductive PErr where
  | fuel | syntax | panic
deriving DecidableEq

/-- the tokens to come, and whether there was a warning -/
structure St where
  toks : List Tok
  warned : Bool

abbrev R (α : Type) := Except PErr (α × St)

/-- `Op::build` (parser.rs:147-155) -/
def Op.build : Op → Expr → Expr → Except PErr Expr
  | .binary o, l, r => .ok (.binary o l r)
  | .assign o, l, r => .ok (.assign o l r)
  | .ternary, _, _ => .error .panic

/-- a prefix operator (parser.rs:2307-2315) -/
def prefixOp : Tok → Option UnaryOp
  | .op .sub => some .neg
  | .not => some .not
  | .bitNot => some .bitNot
  | .plusPlus => some .preIncr
  | .minusMinus => some .preDecr
  | .op .bitAnd => some .reference
  | .op .mul => some .dereference
  | _ => none

/-- the loop over prefix operators (parser.rs:2303-2317) -/
def prefixes : List Tok → List UnaryOp × List Tok
  | [] => ([], [])
  | t :: ts =>
    match prefixOp t with
    | none => ([], t :: ts)
    | some o => let r := prefixes ts; (o :: r.1, r.2)

/-- the operators of one strength, from the left (parser.rs:2282-2296) -/
def buildLeft : Expr → List Expr → List Op → Expr → Except PErr Expr
  | acc, [], op :: _, rhs => op.build acc rhs
  | acc, b :: bs, op :: ops, rhs =>
    match op.build acc b with
    | .error e => .error e
    | .ok e => buildLeft e bs ops rhs
  | _, _, [], _ => .error .panic

/-- the operators of one strength, from the right (parser.rs:2276-2281) -/
def buildRight : List (Op × Expr) → Expr → Except PErr Expr
  | [], rhs => .ok rhs
  | (op, b) :: rest, rhs =>
    match buildRight rest rhs with
    | .error e => .error e
    | .ok e => op.build b e

/-- the end of `expression_part` (parser.rs:2275-2297) -/
def build (s : Nat) (bits : List Expr) (ops : List Op) (rhs : Expr) : Except PErr Expr :=
  if rightBinding s then buildRight (ops.zip bits) rhs
  else
    match bits with
    | [] => .error .panic
    | b :: bs => buildLeft b bs ops rhs

def withSt (st : St) : Except PErr Expr → R Expr
  | .error e => .error e
  | .ok e => .ok (e, st)

mutual
/-- `term` (parser.rs:2356-2649), see the introduction -/
def term : Nat → St → R (Option Term)
  | 0, _ => .error .fuel
  | n + 1, st =>
    match st.toks with
    | .atom a :: r => .ok (some (.atom a), ⟨r, st.warned⟩)
    | .to :: r => .ok (some .to, ⟨r, st.warned⟩)
    | .lparen :: .rparen :: r => .ok (some .null, ⟨r, true⟩)
    | .lparen :: r =>
      match exprEx n 13 ⟨r, st.warned⟩ with
      | .error e => .error e
      | .ok (none, _) => .error .syntax
      | .ok (some e, st') =>
        match st'.toks with
        | .rparen :: r' => .ok (some (.expr e), ⟨r', st'.warned⟩)
        | _ => .error .syntax
    | _ => .ok (none, st)
/-- the loop over what follows a term (parser.rs:2326-2340) with `list_access` (parser.rs:2651-2667) -/
def follows : Nat → St → R (List Follow)
  | 0, _ => .error .fuel
  | n + 1, st =>
    match st.toks with
    | .plusPlus :: r =>
      match follows n ⟨r, st.warned⟩ with
      | .error e => .error e
      | .ok (fs, st') => .ok (.unary .postIncr :: fs, st')
    | .minusMinus :: r =>
      match follows n ⟨r, st.warned⟩ with
      | .error e => .error e
      | .ok (fs, st') => .ok (.unary .postDecr :: fs, st')
    | .lbracket safe :: r =>
      match exprEx n 13 ⟨r, st.warned⟩ with
      | .error e => .error e
      | .ok (none, _) => .error .syntax
      | .ok (some e, st') =>
        match st'.toks with
        | .rbracket :: r' =>
          match follows n ⟨r', st'.warned⟩ with
          | .error e => .error e
          | .ok (fs, st'') => .ok (.index safe e :: fs, st'')
        | _ => .error .syntax
    | _ => .ok ([], st)
/-- `group` (parser.rs:2300-2354) -/
def group : Nat → St → R (Option Expr)
  | 0, _ => .error .fuel
  | n + 1, st =>
    match term n ⟨(prefixes st.toks).2, st.warned⟩ with
    | .error e => .error e
    | .ok (none, _) => if (prefixes st.toks).1.isEmpty then .ok (none, st) else .error .syntax
    | .ok (some t, st') =>
      match follows n st' with
      | .error e => .error e
      | .ok (fs, st'') => .ok (some (.base t (fs ++ (prefixes st.toks).1.reverse.map .unary)), st'')
/-- `expression_ex` (parser.rs:2156-2189); no limit is 13 -/
def exprEx : Nat → Nat → St → R (Option Expr)
  | 0, _, _ => .error .fuel
  | n + 1, lim, st =>
    match group n st with
    | .error e => .error e
    | .ok (none, st') => .ok (none, st')
    | .ok (some e, st') =>
      match exLoop n lim e st' with
      | .error e => .error e
      | .ok (e', st'') => .ok (some e', st'')
/-- the loop of `expression_ex` -/
def exLoop : Nat → Nat → Expr → St → R Expr
  | 0, _, _, _ => .error .fuel
  | n + 1, lim, e, st =>
    match st.toks with
    | .op p :: r =>
      if p.strength > lim then .ok (e, st)
      else
        match part n e p ⟨r, st.warned⟩ with
        | .error e => .error e
        | .ok (e', st') => exLoop n lim e' st'
    | _ => .ok (e, st)
/-- `expression_part` (parser.rs:2191-2298) -/
def part : Nat → Expr → Punct → St → R Expr
  | 0, _, _, _ => .error .fuel
  | n + 1, lhs, prev, st =>
    match group n st with
    | .error e => .error e
    | .ok (none, _) => .error .syntax
    | .ok (some rhs, st1) =>
      match partLoop n prev [lhs] [prev.oper] rhs st1 with
      | .error e => .error e
      | .ok ((bits, ops, rhs), st2) =>
        if prev.strength = 13 then
          match st2.toks with
          | .to :: r =>
            match exprEx n 13 ⟨r, st2.warned⟩ with
            | .error e => .error e
            | .ok (none, _) => .error .syntax
            | .ok (some e, st3) => withSt st3 (build prev.strength bits ops (.binary .to rhs e))
          | _ => withSt st2 (build prev.strength bits ops rhs)
        else if prev.strength = 11 then ternLoop n bits.reverse rhs st2
        else withSt st2 (build prev.strength bits ops rhs)
/-- the loop of `expression_part` (parser.rs:2203-2240) -/
def partLoop : Nat → Punct → List Expr → List Op → Expr → St → R (List Expr × List Op × Expr)
  | 0, _, _, _, _, _ => .error .fuel
  | n + 1, prev, bits, ops, rhs, st =>
    match st.toks with
    | .op p :: r =>
      if p.strength < prev.strength then
        match part n rhs p ⟨r, st.warned⟩ with
        | .error e => .error e
        | .ok (rhs', st') => partLoop n prev bits ops rhs' st'
      else if p.strength > prev.strength then .ok ((bits, ops, rhs), st)
      else
        match group n ⟨r, st.warned⟩ with
        | .error e => .error e
        | .ok (none, _) => .error .syntax
        | .ok (some rhs', st') => partLoop n prev (bits ++ [rhs]) (ops ++ [p.oper]) rhs' st'
    | _ => .ok ((bits, ops, rhs), st)
/-- the loop over the conditions of `?` (parser.rs:2253-2273); the conditions are in reverse -/
def ternLoop : Nat → List Expr → Expr → St → R Expr
  | 0, _, _, _ => .error .fuel
  | _ + 1, [], result, st => .ok (result, st)
  | n + 1, cond :: conds, result, st =>
    match st.toks with
    | .colon :: r =>
      match exprEx n 11 ⟨r, st.warned⟩ with
      | .error e => .error e
      | .ok (none, st') => ternLoop n conds (.ternary cond result (.base .null [])) ⟨st'.toks, true⟩
      | .ok (some e, st') => ternLoop n conds (.ternary cond result e) st'
    | _ => .error .syntax
end

/-- `expression` (parser.rs:2152-2154), with enough fuel -/
def expression (ts : List Tok) : R (Option Expr) := exprEx (8 * ts.length + 4) 13 ⟨ts, false⟩

/-- a whole token stream as an expression, without warnings -/
def parse (ts : List Tok) : Option Expr :=
  match expression ts with
  | .ok (some e, st) => if st.toks.isEmpty && !st.warned then some e else none
  | _ => none

end Verif.Parse
