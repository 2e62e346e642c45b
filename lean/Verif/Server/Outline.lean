import Verif.Server.Diag

/-!
# C90: the outline of a document

Model of `DocumentSymbolRequest` of `crates/dm-langserver/src/main.rs`.
-/

namespace Verif.Server

/-- The annotations that the outline distinguishes (dreammaker/src/annotation.rs). -/
inductive Ann
  | treeBlock (path : List String)
  | «variable» (path : List String)
  | procBody (path : List String)
  | localVar (name : String)
  | macroDef (name : String)
  | other
  deriving DecidableEq, Repr

/-- An annotation with its extent. -/
structure Item where
  /-- Where it starts. -/
  start : Place
  /-- Where it ends. -/
  stop : Place
  /-- What it is. -/
  ann : Ann
  deriving DecidableEq, Repr

/-- The derived order of `Location`: by file, line, column. -/
def Place.Lt (a b : Place) : Prop :=
  a.file < b.file ∨ a.file = b.file ∧ (a.line < b.line ∨ a.line = b.line ∧ a.column < b.column)

instance (a b : Place) : Decidable (a.Lt b) := by unfold Place.Lt; infer_instance

/-- `SymbolKind`. -/
inductive SymKind
  | cls
  | field
  | function
  | constructor
  | method
  | «variable»
  | constant
  deriving DecidableEq, Repr

/-- The fields of a `DocumentSymbol` but the children; whether it has a list of them. -/
structure Header where
  /-- The name. -/
  name : String
  /-- The detail. -/
  detail : Option String
  /-- The kind. -/
  kind : SymKind
  /-- The range. -/
  range : Pos × Pos
  /-- The selection range. -/
  selection : Pos × Pos
  /-- Whether `children` is not `None`. -/
  nests : Bool
  deriving DecidableEq, Repr

/-- A `DocumentSymbol`.  The item it was made from is for the statements only. -/
inductive Sym
  | mk (item : Item) (head : Header) (children : List Sym)

/-- The words that are left out of details: those for which one of `ProcDeclKind::from_name`,
`ProcFlags::from_name`, `VarTypeFlags::from_name` is something, and `var`
(ast.rs:372-378, 409-416, 604-618, main.rs:2127-2131). -/
def isKeyword (x : String) : Bool :=
  x = "proc" || x = "verb" || x = "final" || x = "global" || x = "static" || x = "const" || x = "tmp"
    || x = "SpacemanDMM_final" || x = "SpacemanDMM_private" || x = "SpacemanDMM_protected" || x = "var"

/-- `name_and_detail` (main.rs:2120-2136); nothing if it panics. -/
def nameAndDetail (path : List String) (skip : Nat) : Option (String × Option String) :=
  match path.getLast? with
  | none => none
  | some name =>
    let rest := path.dropLast
    some (name, if skip ≤ rest.length then ((rest.drop skip).reverse.find? (fun x => !isKeyword x)) else none)

/-- `is_constructor_name` (main.rs:2633-2635). -/
def isConstructorName (name : String) : Bool := name = "New" || name = "init" || name = "Initialize"

/-- The kind of a proc (main.rs:2196-2203). -/
def procKind (path : List String) (name : String) : SymKind :=
  if path.length = 1 ∨ path.length = 2 ∧ path[0]? = some "proc" then .function
  else if isConstructorName name then .constructor else .method

/-- `span_to_range` (main.rs:2649-2654). -/
def spanToRange (a b : Place) : Pos × Pos := (toPosition a, toPosition b)

/-- `find_document_symbols` (main.rs:2139-2250): the symbols, and what is left of the iterator; nothing if
it panics.  The number bounds the iterations and is never used up. -/
def findSymbols : Nat → List Item → Place → Nat → Option (List Sym × List Item)
  | 0, items, _, _ => some ([], items)
  | _ + 1, [], _, _ => some ([], [])
  | n + 1, x :: xs, sectionEnd, skip =>
    if ¬ x.start.Lt sectionEnd then some ([], x :: xs) else
    let range := spanToRange x.start x.stop
    let selection := toRange x.start
    match x.ann with
    | .treeBlock path =>
      if path = [] then findSymbols n xs sectionEnd skip else
      (nameAndDetail path skip).bind fun nd =>
      (findSymbols n xs x.stop path.length).bind fun r =>
      (findSymbols n r.2 sectionEnd skip).map fun r' =>
        (.mk x ⟨nd.1, nd.2, .cls, range, selection, true⟩ r.1 :: r'.1, r'.2)
    | .variable path =>
      (nameAndDetail path skip).bind fun nd =>
      (findSymbols n xs sectionEnd skip).map fun r' =>
        (.mk x ⟨nd.1, nd.2, .field, range, selection, false⟩ [] :: r'.1, r'.2)
    | .procBody path =>
      if path = [] then findSymbols n xs sectionEnd skip else
      (nameAndDetail path skip).bind fun nd =>
      (findSymbols n xs x.stop 0).bind fun r =>
      (findSymbols n r.2 sectionEnd skip).map fun r' =>
        (.mk x ⟨nd.1, nd.2, procKind path nd.1, range, selection, true⟩ r.1 :: r'.1, r'.2)
    | .localVar name =>
      (findSymbols n xs sectionEnd skip).map fun r' =>
        (.mk x ⟨name, none, .variable, range, selection, false⟩ [] :: r'.1, r'.2)
    | .macroDef name =>
      (findSymbols n xs sectionEnd skip).map fun r' =>
        (.mk x ⟨name, none, .constant, range, selection, false⟩ [] :: r'.1, r'.2)
    | .other => findSymbols n xs sectionEnd skip

/-- The third part of the key (main.rs:2271-2275). -/
def rankOf (x : Item) : Nat :=
  match x.ann with
  | .treeBlock _ => 0
  | _ => 1

/-- The order of the keys `(start, Reverse(end), rank)` (main.rs:2267-2277): not greater. -/
def keyLe (a b : Item) : Bool :=
  a.start.Lt b.start ||
  (a.start = b.start && (b.stop.Lt a.stop || (a.stop = b.stop && rankOf a ≤ rankOf b)))

/-- `DocumentSymbolRequest` (main.rs:2115-2279) on the annotations that `get_range` yields: `Ok(None)` for an
empty tree, else the symbols; the outer `Option` is the panic.  `fileEnd` is the greatest location of the
file. -/
def documentSymbols (fileEnd : Place) (annotations : List Item) : Option (Option (List Sym)) :=
  if annotations = [] then some none
  else
    let sorted := annotations.mergeSort keyLe
    (findSymbols sorted.length sorted fileEnd 0).map (fun r => some r.1)

end Verif.Server
