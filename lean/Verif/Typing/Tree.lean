/-!
# The finished object tree as DreamChecker sees it

Only what `crates/dreamchecker/src/lib.rs` reads of the tree is kept: the parent type of each type, the variables it
declares, the procs it defines, and the resolution of type paths.  How these maps come about is modelled in
`Verif.Objtree`; in particular C35 shows when the parent relation has no cycle, which is assumed here (a cyclic one makes
every lookup below hang).
-/

namespace Verif.Typing

abbrev Ident := String
abbrev Loc := Nat

/-- `PathOp` (crates/dreammaker/src/ast.rs:89-96). -/
inductive PathOp
  | slash
  | dot
  | colon
  deriving DecidableEq, Repr

/-- `VarDeclaration` (crates/dreammaker/src/objtree.rs:63-67): the declared type path and the flags read by DreamChecker. -/
structure VarDecl where
  path : List Ident
  isPrivate : Bool := false
  isProtected : Bool := false
  isFinal : Bool := false
  deriving DecidableEq, Repr

/-- `ProcValue` (objtree.rs:101-108): parameter names, and whether the definition is one of the built-in ones. -/
structure ProcInfo where
  params : List Ident
  builtin : Bool := false
  deriving DecidableEq, Repr

/-- `ProcRef` (objtree.rs:573-578): a definition of a proc on a type, by its position among those on that type. -/
structure Proc where
  ty : Nat
  name : Ident
  idx : Nat
  deriving DecidableEq, Repr

/-- `ObjectTree` (objtree.rs:717-725), types being their index and 0 being the root.
`procs i n = []` stands for a name that is absent from the map. -/
structure Tree where
  parent : Nat → Option Nat
  /-- How deep a type is below the types without a parent: there is no cycle. -/
  rank : Nat → Nat
  rank_lt : ∀ c p, parent c = some p → rank p < rank c
  /-- The pieces of the type's path. -/
  path : Nat → List Ident
  /-- `type_by_path` and `find` (objtree.rs:745-770). -/
  find : List Ident → Option Nat
  /-- `navigate_path(..)` followed by `.ty()` (objtree.rs:404-434, 540-548). -/
  nav : Nat → List (PathOp × Ident) → Option Nat
  /-- The variables a type declares itself. -/
  vars : Nat → Ident → Option VarDecl
  /-- The definitions of a proc on a type, oldest first. -/
  procs : Nat → Ident → List ProcInfo
  /-- The keyword with which a type declares a proc, `proc` or `verb` (objtree.rs:87-98). -/
  kind : Nat → Ident → Option Ident

/-- The walk of `parent_type()` used by all the lookups below (objtree.rs:270-277). -/
def chainFrom (parent : Nat → Option Nat) : Nat → Nat → List Nat
  | 0, i => [i]
  | n + 1, i => i :: match parent i with
    | some p => chainFrom parent n p
    | none => []

/-- A type and its ancestors, nearest first. -/
def Tree.chain (t : Tree) (i : Nat) : List Nat := chainFrom t.parent (t.rank i) i

/-- `TypeRef::get_var_declaration` (objtree.rs:204-219, 454-456). -/
def Tree.varDecl (t : Tree) (i : Nat) (n : Ident) : Option VarDecl := (t.chain i).findSome? fun j => t.vars j n

/-- The latest definition of a proc on exactly this type (objtree.rs:461-468). -/
def Tree.ownProc (t : Tree) (i : Nat) (n : Ident) : Option Proc :=
  match t.procs i n with
  | [] => none
  | _ :: l => some ⟨i, n, l.length⟩

/-- `TypeRef::get_proc` (objtree.rs:458-472). -/
def Tree.getProc (t : Tree) (i : Nat) (n : Ident) : Option Proc := (t.chain i).findSome? fun j => t.ownProc j n

/-- `ProcRef::parent_proc` (objtree.rs:608-628). -/
def Tree.parentProc (t : Tree) (p : Proc) : Option Proc :=
  match p.idx with
  | k + 1 => some { p with idx := k }
  | 0 => (t.parent p.ty).bind fun q => t.getProc q p.name

/-- `ProcRef::get` (objtree.rs:588-592). -/
def Tree.info (t : Tree) (p : Proc) : ProcInfo := ((t.procs p.ty p.name)[p.idx]?).getD ⟨[], false⟩

/-- `TypeRef::get_proc_declaration` (objtree.rs:474-485), of which only the kind matters. -/
def Tree.declKind (t : Tree) (i : Nat) (n : Ident) : Option Ident := (t.chain i).findSome? fun j => t.kind j n

/-- `TypeRef::is_subtype_of` (objtree.rs:437-446). -/
def Tree.isSubtype (t : Tree) (i j : Nat) : Bool := (t.chain i).contains j

/-- `ObjectTree::expect` (objtree.rs:752-757).  It panics when the type is missing; the types it is asked for are built in
(builtins.rs), so the value 0 here stands for a case that does not arise. -/
def Tree.expect (t : Tree) (n : Ident) : Nat := (t.find [n]).getD 0

/-- `StaticType` (crates/dreamchecker/src/lib.rs:27-36).  The `list` field is always `/list`. -/
inductive STy
  | none
  | type (t : Nat)
  | list (keys : STy)
  | proc
  deriving DecidableEq, Repr

/-- `basic_type` (lib.rs:43-50). -/
def STy.basic (t : Tree) : STy → Option Nat
  | .none => Option.none
  | .type i => some i
  | .list _ => some (t.expect "list")
  | .proc => Option.none

/-- `strip_list` (lib.rs:52-58). -/
def STy.strip : STy → STy
  | .list k => k
  | _ => .none

/-- `strip_lists` (lib.rs:60-65). -/
def STy.strips : STy → Nat → STy
  | s, 0 => s
  | s, n + 1 => s.strip.strips n

/-- `is_truthy` (lib.rs:39-41). -/
def STy.truthy : STy → Bool
  | .none => false
  | _ => true

/-- `is_list` (lib.rs:81-88). -/
def STy.isList (t : Tree) : STy → Bool
  | .none => false
  | .type i => t.path i == ["list"]
  | .list _ => true
  | .proc => false

/-- The words skipped at the head of a declared type (lib.rs:1189-1203). -/
def modifiers : List Ident :=
  ["static", "global", "const", "tmp", "final", "SpacemanDMM_final", "SpacemanDMM_private", "SpacemanDMM_protected"]

/-- `static_type` (lib.rs:1184-1222); the error carries the path of the type that does not exist. -/
def Tree.staticType (t : Tree) : List Ident → Except (List Ident) STy
  | [] => .ok .none
  | x :: rest =>
    if modifiers.contains x then t.staticType rest
    else if x == "list" then
      match t.staticType rest with
      | .ok k => .ok (.list k)
      | .error e => .error e
    else
      match t.find (x :: rest) with
      | some i => .ok (.type i)
      | none => .error (x :: rest)

end Verif.Typing
