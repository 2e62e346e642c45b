import Verif.Dmdoc.ModuleProps

/-!
# C102 on examples
-/

namespace Verif.Dmdoc

open Verif.Docs (Comment ws0)

private def ln (s : String) : Comment := ⟨.line, s.toList⟩

/-- The comments of a file: two neighbouring lines, one apart, an item, an empty comment, another item, and a last comment. -/
private def lined : List (Nat × Wip String) :=
  [(1, .comment (ln " # Title")), (2, .comment (ln " more")), (5, .comment (ln " apart")), (7, .item "FOO"), (9, .comment (ln " ")),
    (10, .item "BAR"), (12, .comment (ln " end"))]

theorem lined_shown : finalizeLoop ws0 lined [] true 0 =
    [.docs true (some "# Title\nmore\n\napart".toList), .item "FOO", .item "BAR", .docs false (some "end".toList)] := by
  decide +kernel

theorem lined_laid : Laid ws0 true lined (finalizeLoop ws0 lined [] true 0) :=
  loop_laid ws0 lined [] [] [] true 0 nofun .nil (fun h => absurd rfl h)

/-- A line comment that is apart from a block comment is in the same paragraph as the end of that all the same: there is no empty
line between them in the text. -/
theorem block_then_line :
    finalizeLoop ws0 [(1, Wip.comment ⟨.block, " a\n b".toList⟩), (9, .comment (ln " c")), (14, .item "X")] [] true 0 =
      [.docs true (some "\na\nb\nc".toList), .item "X"] := by decide +kernel

end Verif.Dmdoc
