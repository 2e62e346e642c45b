import Mathlib.Tactic.Common

/-!
# Model of the indentation processor (`crates/dreammaker/src/indents.rs`)

Tokens are abstracted to the kinds the processor distinguishes, with every other token carried as
`other a`.  Locations are natural numbers (their order is all that matters; see C06).  The iterator
with its output queue is modelled by the list of tokens it yields until it ends.
`usize` counters of spaces and parentheses are unbounded.
-/

namespace Verif.Indents

/-- the tokens as far as indents.rs distinguishes them -/
inductive Tok (α : Type) where
  | newline | tab | space
  | lbrace | rbrace | lparen | rparen | semi
  | other (a : α)
deriving DecidableEq, Repr

/-- error messages registered by the processor -/
inductive Err where
  | inconsistent  -- indents.rs:124-131
  | multiple      -- indents.rs:145-152
  | unmatched     -- indents.rs:182-184
deriving DecidableEq, Repr

/-- `IndentProcessor` (indents.rs:10-24), with the errors registered so far -/
structure St where
  lastLoc : Nat := 0
  eol : Option Nat := none
  current : Option (Nat × Nat) := none
  spaces : Option Nat := none
  parens : Nat := 0
  errors : List Err := []
deriving DecidableEq, Repr

variable {α : Type}

/-- a located token -/
abbrev LTok (α : Type) := Nat × Tok α

/-- location used by `push_eol` (indents.rs:57-62) -/
def St.eolLoc (s : St) : Nat := s.eol.getD s.lastLoc

/-- the match on `self.current` (indents.rs:103-137): old depth, new depth, new state -/
def measure (s : St) (spaces : Nat) : Nat × Nat × St :=
  match s.current with
  | none =>
    if spaces = 0 then (0, 0, { s with current := none })
    else (0, 1, { s with current := some (spaces, 1) })
  | some (spi, ind) =>
    if spaces = 0 then (ind, 0, { s with current := none })
    else
      let s := if spaces % spi ≠ 0 then { s with errors := s.errors ++ [.inconsistent] } else s
      (ind, spaces / spi, { s with current := some (spi, spaces / spi) })

/-- the tokens pushed for a change of depth (indents.rs:139-170) -/
def emit (ind new : Nat) (s : St) : St × List (LTok α) :=
  if ind + 1 = new then (s, [(s.eolLoc, .lbrace)])
  else if ind < new then
    ({ s with errors := s.errors ++ [.multiple] }, List.replicate (new - ind) (s.eolLoc, .lbrace))
  else if ind = new + 1 then (s, [(s.eolLoc, .rbrace)])
  else if ind > new then (s, List.replicate (ind - new) (s.eolLoc, .rbrace))
  else (s, [(s.eolLoc, .semi)])

/-- the indentation part (indents.rs:101-171) -/
def indentPart (s : St) : St × List (LTok α) :=
  match s.spaces with
  | none => (s, [])
  | some n =>
    let r := measure { s with spaces := none } n
    emit r.1 r.2.1 r.2.2

/-- the bookkeeping for the token itself (indents.rs:174-198); `none` = panic (`y - 1` at 187) -/
def account (s : St) : Tok α → Option St
  | .lbrace => some { s with current := match s.current with
      | none => some (1, 1)
      | some (x, y) => some (x, y + 1) }
  | .rbrace => match s.current with
    | none => some { s with errors := s.errors ++ [.unmatched] }
    | some (x, y) =>
      if y = 1 then some { s with current := none }
      else if y = 0 then none
      else some { s with current := some (x, y - 1) }
  | .lparen => some { s with parens := s.parens + 1 }
  | .rparen => some { s with parens := s.parens - 1 }
  | _ => some s

/-- `real_next` (indents.rs:69-202) -/
def realNext (s : St) (t : Tok α) : Option (St × List (LTok α)) :=
  match t with
  | .newline =>
    some ({ s with spaces := if s.parens = 0 then some 0 else s.spaces,
                   eol := some (s.eol.getD s.lastLoc) }, [])
  | .tab | .space => some ({ s with spaces := s.spaces.map (· + 1) }, [])
  | t =>
    let s := if t matches .lbrace | .rbrace then { s with spaces := none } else s
    let r := indentPart s
    (account r.1 t).map fun s' => ({ s' with eol := none }, r.2 ++ [(s'.lastLoc, t)])

/-- feeding one located token (indents.rs:215-217) -/
def feed (s : St) (t : LTok α) : Option (St × List (LTok α)) := realNext { s with lastLoc := t.1 } t.2

/-- feeding a list of tokens, collecting the output -/
def feeds : St → List (LTok α) → Option (St × List (LTok α))
  | s, [] => some (s, [])
  | s, t :: ts => (feed s t).bind fun r => (feeds r.1 ts).map fun r' => (r'.1, r.2 ++ r'.2)

/-- the tokens pushed at the end of input (indents.rs:220-227) -/
def finish (s : St) : List (LTok α) :=
  (s.lastLoc, .semi) :: match s.current with
    | some (_, n) => List.replicate n (s.lastLoc, .rbrace)
    | none => []

/-- all tokens yielded by the processor on an input, and the errors registered; `none` = panic -/
def process (ts : List (LTok α)) : Option (List (LTok α) × List Err) :=
  (feeds {} ts).map fun r => (r.2 ++ finish r.1, r.1.errors)

end Verif.Indents
