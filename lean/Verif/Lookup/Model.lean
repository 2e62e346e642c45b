import Verif.Refs.Walk

/-!
# Model of name lookup and completion in the language server

`crates/dm-langserver/src/completion.rs` and, of `crates/dm-langserver/src/main.rs`, `find_type_context`,
`find_unscoped_var`, `find_scoped_type`, `symbol_id_at`, the hovers, Go to Definition, Go to Type Definition, Completion and
Signature Help.

What is under the cursor is the list of annotations that `AnnotationTree::get_location` gives (C05), in its order.  Places
to go to are the things that are there, not their locations; the texts shown are left out.
-/

namespace Verif.Lookup

open Verif.Typing (Ident Loc PathOp Tree VarDecl ProcInfo)
open Verif.Refs (Sym)

/-- `Parameter` (crates/dreammaker/src/ast.rs:1217-1226). -/
structure Param where
  path : List Ident
  name : Ident

/-- `TypeVar` (crates/dreammaker/src/objtree.rs:77-84): the type path of its declaration, if it is declared here, and
whether there are docs. -/
structure VarEntry where
  decl : Option (List Ident)
  docs : Bool := false

/-- `TypeProc` (objtree.rs:110-121): whether it is declared here, then whether as a verb, and its definitions, oldest first,
with their parameters and whether they have docs. -/
structure ProcEntry where
  decl : Option Bool
  defs : List (List Param × Bool)

/-- `ObjectTree` as far as lookups read it, and the macros.  Types are their index, 0 being the root. -/
structure World where
  parent : Nat → Option Nat
  rank : Nat → Nat
  rank_lt : ∀ c p, parent c = some p → rank p < rank c
  children : Nat → List (Ident × Nat)
  navigate : Nat → PathOp → Ident → Option Nat
  vars : Nat → List (Ident × VarEntry)
  procs : Nat → List (Ident × ProcEntry)
  macros : List Ident

/-- `type_by_path_approx` (objtree.rs:768-792) from type `i` on. -/
def World.approx (W : World) : Nat → Bool → List Ident → Bool × Nat
  | i, _, [] => (true, i)
  | i, first, x :: rest =>
    match (W.children i).lookup x with
    | some j => if x == "list" && first then (true, j) else W.approx j false rest
    | none => (false, i)

/-- `type_by_path` (objtree.rs:759-766). -/
def World.typeByPath (W : World) (p : List Ident) : Option Nat :=
  match W.approx 0 true p with
  | (true, i) => some i
  | (false, _) => none

/-- The same tree in the form in which `Verif.Refs` and `Verif.Typing` read it. -/
def World.tree (W : World) : Tree where
  parent := W.parent
  rank := W.rank
  rank_lt := W.rank_lt
  path := fun _ => []
  find := W.typeByPath
  nav := fun _ _ => none
  vars := fun i n => ((W.vars i).lookup n).bind fun v => v.decl.map fun p => { path := p }
  procs := fun i n => match (W.procs i).lookup n with
    | some q => q.defs.map fun d => { params := d.1.map Param.name }
    | none => []
  kind := fun i n => ((W.procs i).lookup n).bind fun q => q.decl.map fun v => if v then "verb" else "proc"

/-- A type and its ancestors, nearest first: the loops `while let Some(ty) = next { ..; next = ty.parent_type() }`. -/
def World.line (W : World) (i : Nat) : List Nat := W.tree.chain i

/-- The same with `parent_type_without_root()` (objtree.rs:279-289). -/
def World.lineBelow (W : World) (i : Nat) : List Nat :=
  match W.line i with
  | [] => []
  | j :: js => j :: js.takeWhile (· ≠ 0)

/-- `get_var_declaration` (objtree.rs:204-219), of which only the path and the type matter. -/
def World.varDecl (W : World) (i : Nat) (n : Ident) : Option (Nat × List Ident) :=
  (W.line i).findSome? fun j => ((W.vars j).lookup n).bind fun v => v.decl.map fun p => (j, p)

/-- `get_proc_declaration` (objtree.rs:474-485), of which only the type matters. -/
def World.procDecl (W : World) (i : Nat) (n : Ident) : Option Nat :=
  (W.line i).findSome? fun j => ((W.procs j).lookup n).bind fun q => q.decl.map fun _ => j

/-- `Annotation` (crates/dreammaker/src/annotation.rs:14-54), without those that nothing here looks at. -/
inductive Ann
  | treeBlock (p : List Ident)
  | treePath (absolute : Bool) (p : List Ident)
  | typePath (p : List (PathOp × Ident))
  | variable (p : List Ident)
  | procHeader (p : List Ident) (idx : Nat)
  | procBody (p : List Ident) (idx : Nat)
  | localVar (path : List Ident) (n : Ident)
  | unscopedCall (n : Ident)
  | unscopedVar (n : Ident)
  | scopedCall (priors : List Ident) (n : Ident)
  | scopedVar (priors : List Ident) (n : Ident)
  | parentCall
  | inSequence (i : Nat)
  | macroUse (n : Ident) (l : Loc)
  | missingIdent (priors : List Ident)
  | incompleteTypePath (p : List (PathOp × Ident)) (op : PathOp)
  | incompleteTreePath (absolute : Bool) (p : List Ident)
  | arguments (priors : List Ident) (n : Ident) (idx : Nat)
  | argument (i : Nat)
  | other

/-- The annotations at a place, with the start of their span. -/
abbrev Place := List (Loc × Ann)

/-- `if_annotation!` (crates/dm-langserver/src/macros.rs:2-11): the first one of some form. -/
def first {α : Type} (a : Place) (f : Ann → Option α) : Option α := a.findSome? fun x => f x.2

/-- A path without its last part, if this is one of the words. -/
def chop (words : List Ident) (p : List Ident) : List Ident :=
  match p.getLast? with
  | some k => if words.contains k then p.dropLast else p
  | none => p

/-- `find_type_context` (main.rs:836-872). -/
def World.context (W : World) (a : Place) : Option Nat × Option (Ident × Nat) :=
  let body := first a fun | .procBody p idx => some (p, idx) | _ => none
  let (found, proc) : Option Nat × Option (Ident × Nat) := match body with
    | none => (none, none)
    | some (p, idx) =>
      match p.getLast? with
      | some n => (W.typeByPath (chop ["proc", "verb"] p.dropLast), some (n, idx))
      | none => (W.typeByPath [], none)
  let found := match found with
    | some i => some i
    | none =>
      match first a (fun | .treeBlock p => some p | _ => none) with
      | some p => W.typeByPath (chop ["proc", "verb", "var"] p)
      | none => none
  (found, proc)

/-- `UnscopedVar` (main.rs:265-278). -/
inductive Unscoped
  | param (i : Nat) (proc : Ident) (p : Param)
  | var (i : Nat)
  | local (l : Loc) (path : List Ident)
  | none

/-- The parameters of the proc around a place (main.rs:894-908). -/
def World.params (W : World) (i : Nat) : Option (Ident × Nat) → List Param
  | some (n, idx) =>
    match (W.procs i).lookup n with
    | some q => ((q.defs[idx]?).map Prod.fst).getD []
    | none => []
  | none => []

/-- `find_unscoped_var` (main.rs:874-923). -/
def World.unscoped (W : World) (a : Place) (ty : Option Nat) (proc : Option (Ident × Nat)) (n : Ident) : Unscoped :=
  match a.findSome? (fun x => match x.2 with | .localVar path m => if m = n then some (x.1, path) else none | _ => none) with
  | some (l, path) => .local l path
  | none =>
    let i := ty.getD 0
    match (W.params i proc).find? (fun p => p.name = n) with
    | some p => .param i ((proc.map Prod.fst).getD "") p
    | none =>
      match (W.line i).find? fun j => ((W.vars j).lookup n).isSome with
      | some j => .var j
      | none => .none

/-- The loop over the names after the first one (main.rs:961-970). -/
def World.fields (W : World) : Option Nat → List Ident → Option Nat
  | i, [] => i
  | none, _ :: _ => none
  | some i, n :: ns => W.fields ((W.varDecl i n).bind fun d => W.typeByPath d.2) ns

/-- `find_scoped_type` (main.rs:925-973). -/
def World.scoped (W : World) (a : Place) : List Ident → Option Nat
  | [] => (W.context a).1
  | x :: rest =>
    let (ty, proc) := W.context a
    let next :=
      if x = "args" then W.typeByPath ["list"]
      else if x = "global" then some 0
      else if x = "src" then ty
      else if x = "usr" then W.typeByPath ["mob"]
      else if x = "caller" ∨ x = "callee" then W.typeByPath ["callee"]
      else match W.unscoped a ty proc x with
        | .param _ _ p => W.typeByPath p.path
        | .var j => (W.varDecl j x).bind fun d => W.typeByPath d.2
        | .local _ path => W.typeByPath path
        | .none => none
    W.fields next rest

/-- The part of a path up to the one under the cursor (completion.rs:142-145, 190-192). -/
def cut {α : Type} (a : Place) (p : List α) : List α :=
  match first a (fun | .inSequence i => some i | _ => none) with
  | some i => p.take (min (i + 1) p.length)
  | none => p

/-- `combine_tree_path` (completion.rs:131-176). -/
def combine (a : Place) (absolute : Bool) (p : List Ident) : List Ident :=
  let p := cut a p
  let (p, absolute) := if p.contains "var" then ((p.dropWhile (· ≠ "var")).tail, true) else (p, absolute)
  let p := p.dropWhile (· = "list")
  let prefixParts :=
    if absolute then []
    else match first a (fun | .treeBlock q => some q | _ => none) with
      | some q => if q.contains "var" then (q.dropWhile (· ≠ "var")).tail else q
      | none => []
  prefixParts ++ p

/-- `TypePathResult` (completion.rs:493-497); the proc is given by the type whose definitions are meant. -/
structure PathResult where
  ty : Nat
  decl : Option Bool
  proc : Option (Ident × Nat)

/-- The loop of `follow_type_path` (completion.rs:217-232): the type reached, and what comes after `proc` or `verb`. -/
def World.follow (W : World) : Nat → List (PathOp × Ident) → Nat × Option (Bool × List (PathOp × Ident))
  | i, [] => (i, none)
  | i, (op, x) :: rest =>
    if x = "proc" then (i, some (false, rest))
    else if x = "verb" then (i, some (true, rest))
    else match W.navigate i op x with
      | some j => W.follow j rest
      | none => (i, none)

/-- `follow_type_path` (completion.rs:179-246). -/
def World.typePath (W : World) (a : Place) (p : List (PathOp × Ident)) : Option PathResult :=
  let p := cut a p
  let p := match p with
    | (.slash, x) :: rest => if x = "list" ∧ rest ≠ [] then rest else p
    | _ => p
  let start : Option Nat := match p with
    | [] => some 0
    | (.colon, _) :: _ => none
    | (.slash, _) :: _ => some 0
    | (.dot, _) :: _ => some ((W.context a).1.getD 0)
  start.map fun i =>
    match W.follow i p with
    | (j, none) => ⟨j, none, none⟩
    | (j, some (verb, [])) => ⟨j, some verb, none⟩
    | (j, some (verb, (_, n) :: _)) =>
      ⟨j, some verb, ((W.line j).find? fun k => ((W.procs k).lookup n).isSome).map fun k => (n, k)⟩

/-- The walk down to the type of a declaration (main.rs:990-1000, 1008-1018). -/
def World.walk (W : World) (words : List Ident) : Nat → List Ident → Nat
  | i, [] => i
  | i, x :: rest =>
    if words.contains x then i
    else match (W.children i).lookup x with
      | some j => W.walk words j rest
      | none => i

/-- The symbol that one annotation is about: an arm of `symbol_id_at` (main.rs:989-1096). -/
def World.symbolOf (W : World) (a : Place) : Ann → Option Sym
  | .variable p =>
    match p.getLast? with
    | some n => (W.varDecl (W.walk ["var"] 0 p.dropLast) n).map fun d => .var d.1 n
    | none => none
  | .procHeader p _ =>
    match p.getLast? with
    | some n => (W.procDecl (W.walk ["proc", "verb"] 0 p.dropLast) n).map fun j => .proc j n
    | none => none
  | .treePath absolute p => (W.typeByPath (combine a absolute p)).map .type
  | .typePath p =>
    match W.typePath a p with
    | some ⟨i, _, some (n, _)⟩ => (W.procDecl i n).map fun j => .proc j n
    | some ⟨i, none, none⟩ => some (.type i)
    | _ => none
  | .unscopedCall n => (W.procDecl ((W.context a).1.getD 0) n).map fun j => .proc j n
  | .unscopedVar n =>
    match W.unscoped a (W.context a).1 (W.context a).2 n with
    | .var i => (W.varDecl i n).map fun d => .var d.1 n
    | _ => none
  | .scopedCall priors n =>
    (W.scoped a priors).bind fun i =>
      (W.lineBelow i).findSome? fun j => ((W.procs j).lookup n).bind fun q => q.decl.map fun _ => .proc j n
  | .scopedVar priors n =>
    (W.scoped a priors).bind fun i =>
      (W.lineBelow i).findSome? fun j => ((W.vars j).lookup n).bind fun v => v.decl.map fun _ => .var j n
  | _ => none

/-- `symbol_id_at` (main.rs:975-1101): a later annotation overwrites what an earlier one gave. -/
def World.symbolAt (W : World) (a : Place) : Option Sym :=
  a.foldl (fun r x => (W.symbolOf a x.2).or r) none

/-- Something to go to. -/
inductive Target
  | type (i : Nat)
  | var (i : Nat) (n : Ident)
  /-- The latest definition of a proc on a type. -/
  | proc (i : Nat) (n : Ident)
  /-- Some definition of it. -/
  | procDef (i : Nat) (n : Ident) (idx : Nat)
  | param (i : Nat) (proc n : Ident)
  | local (l : Loc)
  | macro (l : Loc)
  deriving DecidableEq, Repr

/-- The type on a line that has a proc of this name. -/
def World.procOn (W : World) (n : Ident) (l : List Nat) : Option Nat := l.find? fun j => ((W.procs j).lookup n).isSome

/-- The type on a line that has a variable of this name. -/
def World.varOn (W : World) (n : Ident) (l : List Nat) : Option Nat := l.find? fun j => ((W.vars j).lookup n).isSome

/-- What one annotation leads to: an arm of `GotoDefinition` (main.rs:1740-1847). -/
def World.gotoOf (W : World) (a : Place) : Ann → Option Target
  | .treePath absolute p =>
    let full := combine a absolute p
    match W.typeByPath full with
    | some i => some (.type i)
    | none =>
      match full.getLast? with
      | some n =>
        ((W.typeByPath full.dropLast).bind W.parent).bind fun i => (W.procOn n (W.line i)).map fun j => .proc j n
      | none => none
  | .typePath p =>
    match W.typePath a p with
    | some ⟨_, _, some (n, k)⟩ => some (.proc k n)
    | some ⟨i, none, none⟩ => some (.type i)
    | _ => none
  | .unscopedCall n => (W.procOn n (W.line ((W.context a).1.getD 0))).map fun j => .proc j n
  | .unscopedVar n =>
    match W.unscoped a (W.context a).1 (W.context a).2 n with
    | .param i q p => some (.param i q p.name)
    | .var i => some (.var i n)
    | .local l _ => some (.local l)
    | .none => none
  | .scopedCall priors n => (W.scoped a priors).bind fun i => (W.procOn n (W.lineBelow i)).map fun j => .proc j n
  | .scopedVar priors n => (W.scoped a priors).bind fun i => (W.varOn n (W.lineBelow i)).map fun j => .var j n
  | .parentCall =>
    match W.context a with
    | (some i, some (n, 0)) => (W.parent i).bind fun q => (W.procOn n (W.line q)).map fun j => .proc j n
    | (some i, some (n, k + 1)) =>
      ((W.procs i).lookup n).bind fun q => if k < q.defs.length then some (.procDef i n k) else none
    | _ => none
  | .macroUse _ l => some (.macro l)
  | _ => none

/-- `GotoDefinition` (main.rs:1728-1856). -/
def World.goto (W : World) (a : Place) : List Target := a.filterMap fun x => W.gotoOf a x.2

/-- The declared type of a variable: an arm of `GotoTypeDefinition` (main.rs:1871-1900). -/
def World.typePathOf (W : World) (a : Place) : Ann → Option (List Ident)
  | .unscopedVar n =>
    match W.unscoped a (W.context a).1 (W.context a).2 n with
    | .param _ _ p => some p.path
    | .var i => (W.varDecl i n).map Prod.snd
    | .local _ path => some path
    | .none => none
  | .scopedVar priors n =>
    (W.scoped a priors).bind fun i =>
      (W.lineBelow i).findSome? fun j => ((W.vars j).lookup n).bind fun v => v.decl
  | _ => none

/-- `GotoTypeDefinition` (main.rs:1858-1911). -/
def World.gotoType (W : World) (a : Place) : Option Nat :=
  match a.foldl (fun r x => (W.typePathOf a x.2).getD r) [] with
  | [] => none
  | p => W.typeByPath p

/-- `SignatureHelpRequest` (main.rs:2039-2112): the type whose proc is shown, and the active argument. -/
def World.signature (W : World) (a : Place) : Option (Nat × Ident × Nat) :=
  match first a (fun | .arguments priors n idx => some (priors, n, idx) | _ => none) with
  | some (priors, n, idx) =>
    let idx := (first a (fun | .argument i => some i | _ => none)).getD idx
    (W.scoped a priors).bind fun i =>
      (W.procOn n (if priors = [] then W.line i else W.lineBelow i)).map fun j => (j, n, idx)
  | none => none

/-! ### Completion -/

/-- `CompletionItem`, with the type it comes from. -/
inductive Item
  | keyword (n : Ident)
  | type (n : Ident) (i : Nat)
  | var (i : Nat) (n : Ident)
  | proc (i : Nat) (n : Ident)
  | local (n : Ident)
  | param (n : Ident)
  | macro (n : Ident)
  deriving DecidableEq, Repr

/-- `PROC_KEYWORDS` (completion.rs:15-52). -/
def procKeywords : List Ident :=
  ["args", "global", "src", "usr", "caller", "callee", "null", "as", ".", "..", "new", "call", "return", "throw", "while",
    "do", "if", "else", "for", "var", "set", "spawn", "switch", "try", "catch", "continue", "break", "goto", "del"]

/-- The names seen, with `false` for variables and `true` for procs, and the items found. -/
abbrev Found := List (Bool × Ident) × List Item

/-- One variable or proc: `skip.insert(..)`, then the query (completion.rs:109-114, 119-128). -/
def offer (q : Ident → Bool) (k : Bool) (mk : Ident → Item) (r : Found) (n : Ident) : Found :=
  if (k, n) ∈ r.1 then r else ((k, n) :: r.1, if q n then r.2 ++ [mk n] else r.2)

/-- `items_ty` (completion.rs:101-129); the same loops are in `tree_completions` (completion.rs:283-323). -/
def World.itemsTy (W : World) (q : Ident → Bool) (r : Found) (i : Nat) : Found :=
  ((W.procs i).map Prod.fst).foldl (offer q true (.proc i)) (((W.vars i).map Prod.fst).foldl (offer q false (.var i)) r)

/-- The members of the types of a line. -/
def World.members (W : World) (q : Ident → Bool) (l : List Nat) : List Item := (l.foldl (W.itemsTy q) ([], [])).2

/-- Keywords. -/
def keywords (q : Ident → Bool) (l : List Ident) : List Item := (l.filter q).map .keyword

/-- The child types. -/
def World.childItems (W : World) (q : Ident → Bool) (i : Nat) : List Item :=
  ((W.children i).filter fun c => q c.1).map fun c => .type c.1 c.2

/-- `tree_completions` (completion.rs:248-326). -/
def World.treeItems (W : World) (q : Ident → Bool) (exact : Bool) (i : Nat) : List Item :=
  keywords q ["proc", "var", "verb"] ++ (if exact then W.childItems q i else []) ++
    (if i = 0 then [] else W.members q (W.line i))

/-- One proc after `proc/` or `verb/` (completion.rs:375-390). -/
def offerDecl (q : Ident → Bool) (verb : Bool) (i : Nat) (r : List Ident × List Item) (p : Ident × ProcEntry) :
    List Ident × List Item :=
  if p.1 ∈ r.1 then r
  else (p.1 :: r.1,
    match p.2.decl with
    | none => r.2
    | some v => if v ≠ verb then r.2 else if q p.1 then r.2 ++ [.proc i p.1] else r.2)

/-- `path_completions` (completion.rs:328-398). -/
def World.pathItems (W : World) (q : Ident → Bool) (a : Place) (p : List (PathOp × Ident)) : List Item :=
  match W.typePath a p with
  | some ⟨i, none, none⟩ => keywords q ["proc", "verb"] ++ W.childItems q i
  | some ⟨i, some verb, none⟩ =>
    ((W.lineBelow i).foldl (fun r j => (W.procs j).foldl (offerDecl q verb j) r) ([], [])).2
  | _ => []

/-- The local variables known at a place (completion.rs:427-438). -/
def localNames (a : Place) : List Ident := a.filterMap fun x => match x.2 with | .localVar _ n => some n | _ => none

/-- `unscoped_completions` (completion.rs:400-472). -/
def World.unscopedItems (W : World) (q : Ident → Bool) (a : Place) : List Item :=
  let (ty, proc) := W.context a
  let i := ty.getD 0
  (if proc.isSome then keywords q procKeywords else []) ++
    ((localNames a).filter q).map .local ++
    (((W.params i proc).map Param.name).filter q).map .param ++
    (W.macros.filter q).map .macro ++
    W.members q (W.line i)

/-- `scoped_completions` (completion.rs:474-490). -/
def World.scopedItems (W : World) (q : Ident → Bool) (a : Place) (priors : List Ident) : List Item :=
  match W.scoped a priors with
  | some i => W.members q (W.lineBelow i)
  | none => []

/-- What one annotation offers, `q` being `contains(.., query)` (C42): an arm of `Completion` (main.rs:1969-2013).
`split_last().unwrap()` is of paths that are not empty. -/
def World.itemsOf (W : World) (q : Ident → Ident → Bool) (a : Place) : Ann → Option (List Item)
  | .treePath absolute p =>
    let r := W.approx 0 true (combine a absolute p.dropLast)
    some (W.treeItems (fun n => q n (p.getLast?.getD "")) r.1 r.2)
  | .typePath p => some (W.pathItems (fun n => q n ((p.getLast?.map Prod.snd).getD "")) a p.dropLast)
  | .unscopedCall n => some (W.unscopedItems (fun m => q m n) a)
  | .unscopedVar n => some (W.unscopedItems (fun m => q m n) a)
  | .scopedCall priors n => some (W.scopedItems (fun m => q m n) a priors)
  | .scopedVar priors n => some (W.scopedItems (fun m => q m n) a priors)
  | _ => none

/-- What an annotation about an error offers (main.rs:1991-2012). -/
def World.errorItemsOf (W : World) (q : Ident → Ident → Bool) (a : Place) : Ann → Option (List Item)
  | .missingIdent priors => some (W.scopedItems (fun m => q m "") a priors)
  | .incompleteTypePath p _ => some (W.pathItems (fun m => q m "") a p)
  | .incompleteTreePath absolute p =>
    let r := W.approx 0 true (combine a absolute p)
    some (W.treeItems (fun m => q m "") r.1 r.2)
  | _ => none

/-- The loop of `Completion` (main.rs:1969-2014): an error overrides anything else and ends the loop. -/
def World.itemsLoop (W : World) (q : Ident → Ident → Bool) (a : Place) : Place → Option (List Item) → Option (List Item)
  | [], r => r
  | x :: xs, r =>
    match W.errorItemsOf q a x.2 with
    | some l => some l
    | none =>
      match W.itemsOf q a x.2 with
      | some l => W.itemsLoop q a xs (some (r.getD [] ++ l))
      | none => W.itemsLoop q a xs r

/-- `Completion` (main.rs:1957-2037). -/
def World.completion (W : World) (q : Ident → Ident → Bool) (a : Place) : List Item :=
  match W.itemsLoop q a a none with
  | some l => l
  | none =>
    match W.context a with
    | (_, some _) => W.unscopedItems (fun m => q m "") a
    | (ty, none) => W.treeItems (fun m => q m "") true (ty.getD 0)

/-! ### Hover -/

/-- `construct_proc_hover` (main.rs:1103-1166) and `construct_var_hover` (main.rs:1168-1214): the types on the line that
declare it, and the type whose docs are shown. -/
def World.hoverProc (W : World) (n : Ident) (l : List Nat) : List Nat × Option Nat :=
  (l.filter fun j => (((W.procs j).lookup n).bind ProcEntry.decl).isSome,
    l.foldl (fun r j => match (W.procs j).lookup n with
      | some q => if (q.defs.getLast?.map Prod.snd).getD false then some j else r
      | none => r) none)

/-- The same for a variable. -/
def World.hoverVar (W : World) (n : Ident) (l : List Nat) : List Nat × Option Nat :=
  (l.filter fun j => (((W.vars j).lookup n).bind VarEntry.decl).isSome,
    l.foldl (fun r j => match (W.vars j).lookup n with
      | some v => if v.docs then some j else r
      | none => r) none)

end Verif.Lookup
