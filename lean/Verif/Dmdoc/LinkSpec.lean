import Verif.Dmdoc.LinkModel
import Verif.Dmdoc.IndexSpec

/-!
# What the links of dmdoc are to be
-/

namespace Verif.Dmdoc

/-! ## What is documented -/

def TypeD.members (t : TypeD) : Kind → List Member
  | .aProc => t.procs
  | .aVar => t.vars

/-- A type with a description, or with a documented var or proc. -/
def HasPage (t : TypeD) : Prop := t.docs = some true ∨ ∃ k, ∃ m ∈ t.members k, m.documented = true

/-- The type at `p` has a page, and if a var or proc is asked for it is documented there. -/
def Documents (w : World) (m : Option (Kind × Str)) (p : Str) : Prop :=
  ∃ t ∈ w.types, t.path = p ∧ HasPage t ∧ ∀ k n, m = some (k, n) → ∃ v ∈ t.members k, v.name = n ∧ v.documented = true

/-! ## The site -/

/-- After everything is written the file of that name holds the page. -/
def Published (w : World) (p : Page) : Prop := ∃ a b, w.site = a ++ p :: b ∧ ∀ q ∈ b, q.name ≠ p.name

/-- The link leads to a page of the site and to an anchor on it. -/
def Leads (w : World) (name : Str) (anchor : Option Str) : Prop :=
  ∃ p, Published w p ∧ p.name = name ∧ ∀ a, anchor = some a → a ∈ p.anchors

/-! ## What object trees are like -/

def marks : List Str := [kindWord .aProc, verbWord, kindWord .aVar]

/-- No part of the path after a slash is `proc`, `verb` or `var`. -/
def Unmarked (s : Str) : Prop := ∀ wd ∈ marks, ∀ a b, s ++ ['/'] ≠ a ++ marker wd ++ b

/-- A path to a type other than the root. -/
def TypePath (s : Str) : Prop := ∃ r, s = '/' :: r ∧ r ≠ [] ∧ r.head? ≠ some '/' ∧ Unmarked s

structure Ordinary (w : World) : Prop where
  distinct : (w.types.map TypeD.path).Nodup
  paths : ∀ t ∈ w.types, t.path = [] ∨ TypePath t.path
  supers : ∀ t ∈ w.types, ∀ p ∈ t.supers, p ≠ []
  /-- No two pages have the same name. -/
  apart : (w.site.map Page.name).Nodup

/-! ## References -/

/-- A reference that is not taken for a macro or a file. -/
def Plain (w : World) (ref : Str) : Prop :=
  (∀ m ∈ w.macros, m.name ≠ ref) ∧ ∀ ext ∈ moduleExts, ¬ ∃ a, ref = a ++ ext

/-- Which word stands before which kind of member. -/
def Word : Kind → Str → Prop
  | .aProc, wd => wd = kindWord .aProc ∨ wd = verbWord
  | .aVar, wd => wd = kindWord .aVar

/-- The absolute path a reference to a type means: slashes in front do not matter. -/
def Absolute (ty full : Str) : Prop := ∃ s r, ty = s ++ r ∧ (∀ c ∈ s, c = '/') ∧ r.head? ≠ some '/' ∧ full = '/' :: r

/-- `p` is the longest path on the way to `full` at which it is documented. -/
def Nearest (w : World) (m : Option (Kind × Str)) (full p : Str) : Prop :=
  OnWay p full ∧ Documents w m p ∧ ∀ q, OnWay q full → Documents w m q → OnWay q p

/-- The name of the page of the type at a path. -/
def PageOf (p name : Str) : Prop := (p = [] ∧ name = globalWord) ∨ ∃ r, p = '/' :: r ∧ name = r

/-- The reference says exactly which documented thing it means. -/
inductive Names (w : World) : Str → Str → Option Str → Prop
  | «macro» {ref : Str} {m : MacroD} : m ∈ w.macros → m.documented = true → m.name = ref →
      Names w ref (w.modulePath m.file) (some (defineAnchor ref))
  | file {ref ext a f : Str} : ext ∈ moduleExts → ref = a ++ ext →
      (f ∈ w.comments ∨ ∃ m ∈ w.macros, m.documented = true ∧ m.file = f) → w.modulePath f = w.modulePath ref →
      Names w ref (w.modulePath ref) none
  | type {ref p name : Str} : Documents w none p → PageOf p name → (ref = p ∨ Absolute ref p) → Names w ref name none
  | member {ref ty wd p name n : Str} {k : Kind} : ref = ty ++ marker wd ++ n → Word k wd → Documents w (some (k, n)) p →
      PageOf p name → (ty = p ∨ Absolute ty p) → Names w ref name (some (anchorOf k n))

end Verif.Dmdoc
