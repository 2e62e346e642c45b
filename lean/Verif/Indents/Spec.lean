import Verif.Indents.Model

/-!
# Specification for the indentation processor (C14, C15)
-/

namespace Verif.Indents

variable {α : Type}

/-- newline, tab or space -/
def Tok.isWs : Tok α → Bool
  | .newline | .tab | .space => true
  | _ => false

/-- `{`, `}` or `;` – the kinds the processor may insert -/
def Tok.isStruct : Tok α → Bool
  | .lbrace | .rbrace | .semi => true
  | _ => false

/-- brace depth after a token list, starting at depth `d`; `none` if some `}` has no matching `{` -/
def depth : Nat → List (Tok α) → Option Nat
  | d, [] => some d
  | d, .lbrace :: ts => depth (d + 1) ts
  | d, .rbrace :: ts => if d = 0 then none else depth (d - 1) ts
  | d, _ :: ts => depth d ts

/-- every `}` matches an earlier `{` and none stays open -/
def Balanced (ts : List (Tok α)) : Prop := depth 0 ts = some 0

/-- a logical line: blank lines before it, its indentation level, and its tokens -/
structure Line (α : Type) where
  blanks : List Nat
  level : Nat
  toks : List (Tok α)

/-- parenthesis discipline inside a logical line: newlines only inside parentheses, no unmatched
`)`; returns the final parenthesis depth -/
def lineScan : Nat → List (Tok α) → Option Nat
  | p, [] => some p
  | p, .newline :: ts => if p = 0 then none else lineScan p ts
  | p, .lparen :: ts => lineScan (p + 1) ts
  | p, .rparen :: ts => if p = 0 then none else lineScan (p - 1) ts
  | _, .lbrace :: _ => none
  | _, .rbrace :: _ => none
  | p, _ :: ts => lineScan p ts

/-- the tokens of a line are brace-free, start with a real token and close their parentheses -/
structure LineOk (l : Line α) : Prop where
  first : ∃ t r, l.toks = t :: r ∧ t.isWs = false
  scan : lineScan 0 l.toks = some 0

/-- the source text of a line, with `k` tabs per level -/
def Line.source (k : Nat) (l : Line α) : List (Tok α) :=
  l.blanks.flatMap (fun n => Tok.newline :: List.replicate n .tab) ++
    (Tok.newline :: List.replicate (k * l.level) .tab) ++ l.toks

/-- indentation goes up by at most one level at a time, from `prev` -/
def StepsOk : Nat → List (Line α) → Prop
  | _, [] => True
  | prev, l :: ls => l.level ≤ prev + 1 ∧ StepsOk l.level ls

/-- the structural tokens between a line at level `p` and the next one at level `l` -/
def sep (p l : Nat) : List (Tok α) :=
  if p < l then List.replicate (l - p) .lbrace
  else if l < p then List.replicate (p - l) .rbrace
  else [.semi]

/-- the expected output for a list of lines after a line at level `prev` -/
def layout : Nat → List (Line α) → List (Tok α)
  | _, [] => []
  | prev, l :: ls => sep prev l.level ++ l.toks.filter (fun t => !t.isWs) ++ layout l.level ls

/-- level of the last line -/
def lastLevel : Nat → List (Line α) → Nat
  | prev, [] => prev
  | _, l :: ls => lastLevel l.level ls

end Verif.Indents
