import Verif.Dmdoc.MarkdownModel

/-!
# What documentation blocks are to be
-/

namespace Verif.Dmdoc

/-- The words of a text are the longest runs of alphanumeric characters. -/
inductive WordsOf (al : Char → Bool) : List Char → List (List Char) → Prop
  | nil : WordsOf al [] []
  | sep {c : Char} {s : List Char} {words : List (List Char)} : al c = false → WordsOf al s words → WordsOf al (c :: s) words
  | word {w s : List Char} {words : List (List Char)} : w ≠ [] → (∀ c ∈ w, al c = true) → (∀ c, s.head? = some c → al c = false) →
      WordsOf al s words → WordsOf al (w ++ s) (w :: words)

/-- The text of some events. -/
def textOf (evs : List Ev) : List Char := evs.flatMap fun
  | .text s => s
  | _ => []

def NoEnd (evs : List Ev) : Prop := ∀ l, Ev.endH l ∉ evs

/-- Headings get tags with an anchor made of their text; all else stays as it is. -/
inductive Linked (g : Tags) : List Ev → List Ev → Prop
  | nil : Linked g [] []
  | plain {e : Ev} {es os : List Ev} : (∀ l, e ≠ .startH l) → Linked g es os → Linked g (e :: es) (e :: os)
  | heading {l l' : Nat} {body es os : List Ev} : NoEnd body → Linked g es os →
      Linked g (.startH l :: (body ++ .endH l' :: es)) (g.opening l (textOf body) :: (body ++ g.closing l :: os))
  | unclosed {l : Nat} {body : List Ev} : NoEnd body → Linked g (.startH l :: body) (g.opening l (textOf body) :: (body ++ [g.closing l]))

end Verif.Dmdoc
