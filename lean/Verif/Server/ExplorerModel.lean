import Verif.Objtree.Props

/-!
# Model of the object tree explorer (`crates/dm-langserver/src/main.rs`, `extras.rs`)

On the object tree of `Verif.Objtree`.  The locations (`convert_location(..).ok()`, main.rs:376-397) and what a declaration says
(`const`, `verb`) are parameters.
-/

namespace Verif.Explorer

open Verif.Objtree

/-- what the model of the tree leaves out -/
structure View (V P L : Type) where
  typeLoc : Node V P → Option L
  varLoc : Node V P → Ident → TypeVar V → Option L
  procLoc : Node V P → Ident → P → Option L
  /-- `var_type.flags.is_const()` of the declaration with this id -/
  isConst : Nat → Bool
  /-- `kind.is_verb()` of the declaration with this id -/
  isVerb : Nat → Bool

/-- the `SymbolKind`s used -/
inductive SymKind where
  | constant | field | function | constructor | method
deriving DecidableEq, Repr

/-- `ObjectTreeVar` (extras.rs:54-60) -/
structure VarE (L : Type) where
  name : Ident
  kind : SymKind
  location : Option L
  isDeclaration : Bool
deriving DecidableEq

/-- `ObjectTreeProc` (extras.rs:61-67) -/
structure ProcE (L : Type) where
  name : Ident
  kind : SymKind
  location : Option L
  isVerb : Option Bool
deriving DecidableEq

/-- `ObjectTreeType` (extras.rs:42-53) without the children; the kind is always `CLASS` -/
structure Head (L : Type) where
  name : Ident
  location : Option L
  vars : List (VarE L)
  procs : List (ProcE L)
  nVars : Nat
  nProcs : Nat
  nChildren : Nat
deriving DecidableEq

/-- `ObjectTreeType` (extras.rs:42-53) -/
inductive Entry (L : Type) where
  | mk (head : Head L) (children : List (Entry L))

namespace Entry
variable {L : Type}
def head : Entry L → Head L | .mk h _ => h
def children : Entry L → List (Entry L) | .mk _ cs => cs
end Entry

variable {V P L : Type} (w : View V P L)

/-- `a.name.cmp(&b.name)` is not greater -/
def byName {A : Type} (name : A → Ident) (a b : A) : Bool := !strLt (name b) (name a)

/-- `is_constructor_name` (main.rs:2633-2635) -/
def isConstructorName (n : Ident) : Bool := n = "New".toList || n = "init".toList || n = "Initialize".toList

/-- `objtree_stub` (main.rs:420-435) -/
def stubHead (n : Node V P) : Head L :=
  { name := n.name, location := w.typeLoc n, vars := [], procs := [], nVars := n.vars.length, nProcs := n.procs.length,
    nChildren := n.children.length }

/-- the loop over the vars (main.rs:441-465) -/
def varEntry (n : Node V P) (v : Ident × TypeVar V) : VarE L :=
  { name := v.1
    kind := if (match v.2.decl with | some d => w.isConst d | none => false) then .constant else .field
    location := w.varLoc n v.1 v.2
    isDeclaration := v.2.decl.isSome }

/-- the loop over the values of a proc (main.rs:471-487) -/
def procValues (n : Node V P) (name : Ident) : Option Bool → List P → List (ProcE L)
  | _, [] => []
  | verb, p :: ps =>
    { name := name
      kind := if n.path.isEmpty then .function else if isConstructorName name then .constructor else .method
      location := w.procLoc n name p
      isVerb := verb } :: procValues n name none ps

/-- the loop over the procs (main.rs:469-488) -/
def procEntries (n : Node V P) : List (ProcE L) :=
  n.procs.flatMap fun p => procValues w n p.1 (p.2.decl.map w.isVerb) p.2.value

/-- `objtree_with_vars_and_procs` (main.rs:437-492) -/
def fullHead (n : Node V P) : Head L :=
  { stubHead w n with
    vars := (n.vars.map (varEntry w n)).mergeSort (byName VarE.name)
    procs := (procEntries w n).mergeSort (byName ProcE.name) }

/-- `entry.children.sort_by` (main.rs:501, 513) -/
def sortChildren (cs : List (Entry L)) : List (Entry L) := cs.mergeSort (byName fun e => e.head.name)

/-- `objtree_recurse` (main.rs:494-504); `none` is out of fuel, or an index out of bounds -/
def recurse (t : Tree V P) : Nat → Nat → Option (Entry L)
  | 0, _ => none
  | fuel + 1, i =>
    match t.graph[i]? with
    | none => none
    | some n => ((n.children.map Prod.snd).mapM (recurse t fuel)).map fun cs => .mk (fullHead w n) (sortChildren cs)

/-- `objtree_stub` of a child -/
def stub (t : Tree V P) (i : Nat) : Option (Entry L) :=
  match t.graph[i]? with
  | none => none
  | some n => some (.mk (stubHead w n) [])

/-- `objtree_with_placeholders` (main.rs:506-516) -/
def placeholders (t : Tree V P) (i : Nat) : Option (Entry L) :=
  match t.graph[i]? with
  | none => none
  | some n => ((n.children.map Prod.snd).mapM (stub w t)).map fun cs => .mk (fullHead w n) (sortChildren cs)

/-- what a request is answered with -/
inductive Answer (L : Type) where
  | error
  | entry (e : Entry L)

/-- `QueryObjectTree` (main.rs:2417-2423); `none` is a panic -/
def query (t : Tree V P) (path : List Char) : Option (Answer L) :=
  match t.find path with
  | none => some .error
  | some i => (placeholders w t i).map .entry

/-- the capabilities `update_objtree` looks at -/
structure Caps where
  objectTree : Bool
  objectTree2 : Bool

/-- what `update_objtree` sends -/
inductive Sent (L : Type) where
  | changed
  | tree (e : Entry L)

/-- `update_objtree` (main.rs:402-418): outer `none` is out of fuel, inner `none` is that nothing is sent -/
def update (t : Tree V P) (caps : Caps) (fuel : Nat) : Option (Option (Sent L)) :=
  if caps.objectTree2 then some (some .changed)
  else if caps.objectTree then (recurse w t fuel 0).map fun e => some (.tree e)
  else some none

end Verif.Explorer
