import Verif.Dmdoc.IndexModel

/-!
# What the index of dmdoc is to be
-/

namespace Verif.Dmdoc

mutual
/-- The entries of a tree as they are shown, from top to bottom. -/
def ITree.shown : ITree → List Entry
  | .node e _ cs => e :: shownAll cs
def shownAll : List ITree → List Entry
  | [] => []
  | t :: ts => t.shown ++ shownAll ts
end

/-- `n` is somewhere in the tree. -/
inductive Inside : ITree → List ITree → Prop
  | here {n : ITree} {ts : List ITree} : n ∈ ts → Inside n ts
  | deeper {n : ITree} {ts cs : List ITree} {e : Entry} {b : Bool} : ITree.node e b cs ∈ ts → Inside n cs → Inside n ts

/-- `p` is a path on the way to `full`: not empty, and `full` or followed by a slash. -/
def OnWay (p full : Str) : Prop := p ≠ [] ∧ (p = full ∨ ∃ q, full = p ++ '/' :: q)

/-- `p` without its last part is `q`. -/
def ParentPath (q p : Str) : Prop := ∃ s, p = q ++ '/' :: s ∧ '/' ∉ s

/-- A path of one part. -/
def TopPath (p : Str) : Prop := '/' ∉ p.tail

/-- The entry shown for a path that has none of its own: no page, no text, its last part for a name. -/
def Placeholder (e : Entry) : Prop :=
  e.html = [] ∧ e.teaser = [] ∧ e.noSub = true ∧ '/' ∉ e.self ∧ (e.full = e.self ∨ ∃ q, e.full = q ++ '/' :: e.self)

/-- `l` shows the entries `es`, each once and in order, and between them only placeholders for paths on the way to the
next. -/
inductive Lists : List Entry → List Entry → Prop
  | nil : Lists [] []
  | entry {e : Entry} {es l : List Entry} : Lists es l → Lists (e :: es) (e :: l)
  | between {a e : Entry} {es l : List Entry} :
      Placeholder a → OnWay a.full e.full → a.full ≠ e.full → Lists (e :: es) l → Lists (e :: es) (a :: l)

/-- The order of a `BTreeMap<&str, _>`: by bytes, which is by characters. -/
def Before (a b : Str) : Prop := List.Lex (fun x y : Char => x.val < y.val) a b

/-- Every name that appears is in order. -/
def InOrder (es : List Entry) : Prop := es.Pairwise fun a b => Before a.full b.full

/-- No name goes on from a path on the way to another name with a character that comes before the slash, as `code/a-b` goes on
from `code/a`. -/
def Clear (es : List Entry) : Prop :=
  ∀ a ∈ es, ∀ b ∈ es, ∀ q, OnWay q b.full → ∀ (c : Char) (t : Str), a.full = q ++ c :: t → '/'.val ≤ c.val

end Verif.Dmdoc
