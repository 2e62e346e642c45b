import Verif.Lexer.Model

/-!
# Independent notions used in the lexer theorems
-/

namespace Verif.Lexer

/-- The line and column (both counted from 1) of the character that follows `before` in a text:
one plus the number of newlines before it, one plus the number of characters since the last one. -/
def lineCol (before : List Char) : Loc :=
  ⟨1 + before.count '\n', 1 + (before.reverse.takeWhile (· ≠ '\n')).length⟩

/-- The text without a byte order mark. -/
def body (text : List Char) : List Char := if bom.isPrefixOf text then text.drop 3 else text

/-- The file is within the documented limits: every position in it (the end included) has a line
number that fits `u32` and a column number that fits `u16`. -/
def Fits (text : List Char) : Prop :=
  ∀ before after, body text = before ++ after →
    (lineCol before).line ≤ 4294967295 ∧ (lineCol before).col ≤ 65535

/-- The characters the lexer has not handed out yet: the one put back, then the unread ones. -/
def Lexer.view (s : Lexer) : List Char := s.nxt.toList ++ s.rem

end Verif.Lexer
