import Verif.Parse.Model

/-!
# The grammar of expressions

`Derives k ts e`: the tokens `ts` spell the expression `e` at level `k`.  Level 0 is a term with prefix and postfix
operators; level `s + 1` has the operators of strength `s`.  The levels, from the reference of the language:

    1 **    2 * / % %%    3 + -    4 < <= > >=    5 << >>    6 == != <> ~= ~!    7 &    8 ^    9 |    10 &&    11 ||
    12 ?:   13 assignments   14 in   15 in … to …
-/

namespace Verif.Parse

/-- operators that associate to the left: all but `?`, the assignments and `in` -/
inductive LeftOp : Nat → Punct → BinaryOp → Prop where
  | pow : LeftOp 1 .pow .pow
  | mul : LeftOp 2 .mul .mul
  | div : LeftOp 2 .slash .div
  | mod : LeftOp 2 .mod .mod
  | floatMod : LeftOp 2 .floatMod .floatMod
  | add : LeftOp 3 .add .add
  | sub : LeftOp 3 .sub .sub
  | less : LeftOp 4 .less .less
  | greater : LeftOp 4 .greater .greater
  | lessEq : LeftOp 4 .lessEq .lessEq
  | greaterEq : LeftOp 4 .greaterEq .greaterEq
  | lessOrGreater : LeftOp 4 .lessOrGreater .lessOrGreater
  | lShift : LeftOp 5 .lShift .lShift
  | rShift : LeftOp 5 .rShift .rShift
  | eq : LeftOp 6 .eq .eq
  | notEq : LeftOp 6 .notEq .notEq
  | lessGreater : LeftOp 6 .lessGreater .notEq
  | equiv : LeftOp 6 .equiv .equiv
  | notEquiv : LeftOp 6 .notEquiv .notEquiv
  | bitAnd : LeftOp 7 .bitAnd .bitAnd
  | bitXor : LeftOp 8 .bitXor .bitXor
  | bitOr : LeftOp 9 .bitOr .bitOr
  | and : LeftOp 10 .and .and
  | or : LeftOp 11 .or .or
  | in_ : LeftOp 14 .in_ .in_

/-- the assignments -/
inductive RightOp : Punct → AssignOp → Prop where
  | assign : RightOp .assign .assign
  | addAssign : RightOp .addAssign .addAssign
  | subAssign : RightOp .subAssign .subAssign
  | mulAssign : RightOp .mulAssign .mulAssign
  | divAssign : RightOp .divAssign .divAssign
  | modAssign : RightOp .modAssign .modAssign
  | floatModAssign : RightOp .floatModAssign .floatModAssign
  | bitAndAssign : RightOp .bitAndAssign .bitAndAssign
  | bitOrAssign : RightOp .bitOrAssign .bitOrAssign
  | bitXorAssign : RightOp .bitXorAssign .bitXorAssign
  | lShiftAssign : RightOp .lShiftAssign .lShiftAssign
  | rShiftAssign : RightOp .rShiftAssign .rShiftAssign
  | assignInto : RightOp .assignInto .assignInto
  | andAssign : RightOp .andAssign .andAssign
  | orAssign : RightOp .orAssign .orAssign

/-- prefix operators -/
inductive Prefix : Tok → UnaryOp → Prop where
  | neg : Prefix (.op .sub) .neg
  | not : Prefix .not .not
  | bitNot : Prefix .bitNot .bitNot
  | preIncr : Prefix .plusPlus .preIncr
  | preDecr : Prefix .minusMinus .preDecr
  | reference : Prefix (.op .bitAnd) .reference
  | dereference : Prefix (.op .mul) .dereference

mutual
inductive Derives : Nat → List Tok → Expr → Prop where
  /-- a term with what follows it; the prefix operators apply after that, the nearest first -/
  | unary {ps os ts t fts fs} : List.Forall₂ Prefix ps os → DTerm ts t → DFollow fts fs →
    Derives 0 (ps ++ (ts ++ fts)) (.base t (fs ++ os.reverse.map .unary))
  | up {k ts e} : k < 15 → Derives k ts e → Derives (k + 1) ts e
  | left {k p o t1 t2 a b} : LeftOp (k + 1) p o → Derives (k + 1) t1 a → Derives k t2 b →
    Derives (k + 1) (t1 ++ (.op p :: t2)) (.binary o a b)
  | cond {t1 t2 t3 c a b} : Derives 11 t1 c → Derives 12 t2 a → Derives 12 t3 b →
    Derives 12 (t1 ++ (.op .questionMark :: (t2 ++ (.colon :: t3)))) (.ternary c a b)
  | assign {p o t1 t2 a b} : RightOp p o → Derives 12 t1 a → Derives 13 t2 b →
    Derives 13 (t1 ++ (.op p :: t2)) (.assign o a b)
  | to {t1 t2 t3 a b c} : Derives 14 t1 a → Derives 13 t2 b → Derives 15 t3 c →
    Derives 15 (t1 ++ (.op .in_ :: (t2 ++ (.to :: t3)))) (.binary .in_ a (.binary .to b c))
inductive DTerm : List Tok → Term → Prop where
  | atom {a} : DTerm [.atom a] (.atom a)
  | to : DTerm [.to] .to
  | paren {ts e} : Derives 15 ts e → DTerm (.lparen :: (ts ++ [.rparen])) (.expr e)
inductive DFollow : List Tok → List Follow → Prop where
  | nil : DFollow [] []
  | incr {ts fs} : DFollow ts fs → DFollow (.plusPlus :: ts) (.unary .postIncr :: fs)
  | decr {ts fs} : DFollow ts fs → DFollow (.minusMinus :: ts) (.unary .postDecr :: fs)
  | index {safe ts1 e ts fs} : Derives 15 ts1 e → DFollow ts fs →
    DFollow (.lbracket safe :: (ts1 ++ (.rbracket :: ts))) (.index safe e :: fs)
end

end Verif.Parse
