import Verif.Dmm.Text

/-!
# Specification of writable maps (C12)

These predicates describe the maps whose saved text can be read back.  They are stated on the *data*
(paths, names, texts of values, shape of the grid), independently of the reader's state machine.
-/

namespace Verif.Dmm

/-- no two adjacent slashes (they would start a comment) -/
def NoDoubleSlash (t : List Char) : Prop := ¬ ['/', '/'] <:+: t

/-- a type path that survives a save: non-empty, without line ends, tabs or list punctuation -/
structure PathOk (p : List Char) : Prop where
  ne : p ≠ []
  chars : ∀ c ∈ p, c ∉ ['\n', '\r', '\t', '{', ',', ')']
  slashes : NoDoubleSlash p

/-- a variable name that survives a save -/
structure NameOk (n : List Char) : Prop where
  ne : n ≠ []
  chars : ∀ c ∈ n, c ∉ ['\n', '\r', '\t', '"', '=', ';', '}']
  slashes : NoDoubleSlash n
  head : n.head? ≠ some ' '
  last : ∀ c, n.getLast? = some c → isWs c = false

/-- text between a pair of double quotes: ordinary characters, and runs of backslashes each followed
by one more character before the closing quote -/
inductive QuoteBody : List Char → Prop where
  | nil : QuoteBody []
  | plain (c : Char) (r : List Char) : c ∉ ['\n', '\r', '\t', '"', '\\'] → QuoteBody r →
      QuoteBody (c :: r)
  | esc (n : Nat) (c : Char) (r : List Char) : c ∉ ['\n', '\r', '\t', '\\'] → QuoteBody r →
      QuoteBody (List.replicate (n + 1) '\\' ++ c :: r)

/-- the part of a value text outside double quotes -/
structure PlainOk (p : List Char) : Prop where
  chars : ∀ c ∈ p, c ∉ ['\n', '\r', '\t', '"', ';', '}']
  slashes : NoDoubleSlash p

/-- the text of a value that survives a save: plain parts alternating with quoted strings -/
inductive ValueOk : List Char → Prop where
  | plain (p : List Char) : PlainOk p → ValueOk p
  | quoted (p q r : List Char) : PlainOk p → QuoteBody q → ValueOk r →
      ValueOk (p ++ ('"' :: q ++ '"' :: r))

/-- a prefab that survives a save -/
structure PrefabOk {C : Type} (showV : C → List Char) (evalV : List Char → Option C)
    (f : Prefab C) : Prop where
  path : PathOk f.path
  names : ∀ p ∈ f.vars, NameOk p.1
  distinct : (f.vars.map Prod.fst).Nodup
  values : ∀ p ∈ f.vars, ValueOk (showV p.2) ∧ evalV (showV p.2) = some p.2

/-- a map that survives a save -/
structure MapOk {C : Type} (showV : C → List Char) (evalV : List Char → Option C)
    (m : Map C) : Prop where
  dict_ne : m.dict ≠ []
  dict_sorted : (m.dict.map Prod.fst).Pairwise (· < ·)
  keys16 : ∀ e ∈ m.dict, e.1 < 65536
  entries_ne : ∀ e ∈ m.dict, e.2 ≠ []
  prefabs : ∀ e ∈ m.dict, ∀ f ∈ e.2, PrefabOk showV evalV f
  dims : 1 ≤ m.dimZ ∧ 1 ≤ m.dimY ∧ 1 ≤ m.dimX
  dims64 : m.dimZ < 2 ^ 64 - 1 ∧ m.dimY < 2 ^ 64 - 1 ∧ m.dimX < 2 ^ 64 - 1
  shapeZ : m.grid.length = m.dimZ
  shapeY : ∀ l ∈ m.grid, l.length = m.dimY
  shapeX : ∀ l ∈ m.grid, ∀ r ∈ l, r.length = m.dimX
  cells16 : ∀ l ∈ m.grid, ∀ r ∈ l, ∀ k ∈ r, k < 65536

end Verif.Dmm
