import Verif.Dmdoc.MarkdownProps

/-!
# C103 on examples
-/

namespace Verif.Dmdoc

private def g0 : Tags := ⟨Char.isAlphanum, fun c => [c.toLower], fun n => 'h' :: (toString n).toList⟩

/-- A renderer: tags for what it knows. -/
private def html0 (evs : List Ev) : List Char := evs.flatMap fun
  | .startH n => "<h".toList ++ (toString n).toList ++ ['>']
  | .endH n => "</h".toList ++ (toString n).toList ++ ['>']
  | .startP => "<p>".toList
  | .endP => "</p>\n".toList
  | .text s => s
  | .html s => s
  | .other _ => "<hr>".toList

private def r0 : Render := ⟨g0, Char.isWhitespace, html0⟩

theorem r0_paragraph : ∃ c ∈ r0.html [.endP], r0.ws c = false := ⟨'<', by decide +kernel, by decide +kernel⟩

theorem r0_dash : g0.al '-' = false := by decide +kernel

private def tx (s : String) : Ev := .text s.toList

private def doc : List Ev :=
  [.startH 1, tx "Guns", .endH 1, .startP, tx "Pew ", tx "pew.", .endP, .startH 2, tx "Don't  Panic!", .endH 2, .startP, tx "Run.", .endP]

theorem doc_title : (parseWithTitle r0 doc).1 = some "Guns".toList := by decide +kernel

theorem doc_teaser : (parseWithTitle r0 doc).2.teaserText = some "Pew pew.".toList := by decide +kernel

theorem doc_description : (parseWithTitle r0 doc).2.hasDescription = true := by decide +kernel

theorem doc_html : (parseWithTitle r0 doc).2.html =
    "<p>Pew pew.</p>\n<h2 id=\"dont-panic\">Don't  Panic!</h2><p>Run.</p>".toList := by decide +kernel

theorem slug_example : slugify g0.al g0.lower "  Don't Panic -- 2nd Ed.".toList = "dont-panic-2nd-ed".toList := by decide +kernel

/-! ## Where the code does not do what one would want -/

/-- Headings of the same words have the same anchor, and a heading without alphanumeric characters has an empty one. -/
theorem same_anchor : slugify g0.al g0.lower "Usage".toList = slugify g0.al g0.lower "usage?".toList ∧
    slugify g0.al g0.lower "???".toList = [] := by decide +kernel

end Verif.Dmdoc
