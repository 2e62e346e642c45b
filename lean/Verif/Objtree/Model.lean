import Mathlib.Tactic.Common
import Mathlib.Data.List.Basic

/-!
# Model of the object tree (`crates/dreammaker/src/objtree.rs`)

* Strings are lists of characters.  `IndexMap` is an association list in insertion order, `BTreeMap` one in
  key order.
* Node indices and symbol ids are natural numbers (no 32-bit overflow); `NodeIndex::end()` is `none`.
* `V` stands for what a variable value holds (location, expression, documentation), `P` for a proc value
  (location, parameters, code).  Messages sent to the context are not modelled.
* A Rust panic is `none`.  The `while let` loops up the tree take fuel; `none` is out of fuel, and the
  theorems say when some fuel suffices.
-/

namespace Verif.Objtree

abbrev Ident := List Char

/-! ## Maps -/

/-- `get` on either map -/
def mget {K W : Type} [DecidableEq K] (k : K) : List (K × W) → Option W
  | [] => none
  | (k', w) :: t => if k = k' then some w else mget k t

/-- `IndexMap::insert` -/
def iset {K W : Type} [DecidableEq K] (k : K) (w : W) : List (K × W) → List (K × W)
  | [] => [(k, w)]
  | (k', w') :: t => if k = k' then (k, w) :: t else (k', w') :: iset k w t

/-- the order of strings: by code points (the order of UTF-8 bytes is the same) -/
def strLt : List Char → List Char → Bool
  | _, [] => false
  | [], _ :: _ => true
  | a :: s, b :: t => if a.toNat < b.toNat then true else if b.toNat < a.toNat then false else strLt s t

/-- `BTreeMap::insert` -/
def bset {W : Type} (k : List Char) (w : W) : List (List Char × W) → List (List Char × W)
  | [] => [(k, w)]
  | (k', w') :: t =>
    if k = k' then (k, w) :: t
    else if strLt k k' then (k, w) :: (k', w') :: t
    else (k', w') :: bset k w t

/-! ## Types -/

/-- `TypeVar` with `VarDeclaration` (objtree.rs:62-82); the declaration is kept as its symbol id -/
structure TypeVar (V : Type) where
  value : V
  decl : Option Nat
deriving DecidableEq

/-- `TypeProc` with `ProcDeclaration` (objtree.rs:84-114) -/
structure TypeProc (P : Type) where
  value : List P
  decl : Option Nat
deriving DecidableEq

/-- `Type` (objtree.rs:125-143) -/
structure Node (V P : Type) where
  path : List Char
  lastSlash : Nat
  vars : List (Ident × TypeVar V)
  procs : List (Ident × TypeProc P)
  parentPath : Option Nat
  parentType : Option Nat
  id : Nat
  children : List (Ident × Nat)

/-- `ObjectTree` (objtree.rs:717-721) -/
structure Tree (V P : Type) where
  graph : List (Node V P)
  types : List (List Char × Nat)
  redirected : List Nat

/-- `ObjectTreeBuilder` (objtree.rs:832-835); `next` is the next symbol id -/
structure Builder (V P : Type) where
  inner : Tree V P
  next : Nat

section
variable {V P : Type}

/-- `ObjectTreeBuilder::default` (objtree.rs:837-866): the root has symbol id 0 -/
def Builder.init : Builder V P :=
  { inner :=
      { graph := [⟨[], 0, [], [], none, none, 0, []⟩]
        types := []
        redirected := [] }
    next := 1 }

/-- change a node -/
def Tree.modify (t : Tree V P) (i : Nat) (f : Node V P → Node V P) : Tree V P :=
  { t with graph := t.graph.modify i f }

/-- `subtype_or_add` (objtree.rs:1020-1057), without the location of the type -/
def Builder.subtypeOrAdd (b : Builder V P) (parent : Nat) (child : Ident) : Option (Builder V P × Nat) :=
  match b.inner.graph[parent]? with
  | none => none
  | some p =>
    match mget child p.children with
    | some target => some (b, target)
    | none =>
      let path := p.path ++ '/' :: child
      let node := b.inner.graph.length
      let graph := b.inner.graph ++
        [{ path := path
           lastSlash := p.path.length
           vars := []
           procs := []
           parentPath := some parent
           parentType := none
           id := b.next
           children := [] }]
      some
        ({ inner :=
             { b.inner with
               graph := graph.modify parent fun q => { q with children := bset child node q.children }
               types := bset path node b.inner.types }
           next := b.next + 1 }, node)

/-- `insert_var` (objtree.rs:1059-1078) -/
def insertVar (name : Ident) (value : V) (decl : Option Nat) (n : Node V P) : Node V P :=
  match mget name n.vars with
  | none => { n with vars := iset name ⟨value, decl⟩ n.vars }
  | some tv =>
    { n with vars := (iset name ⟨value, decl.or tv.decl⟩ n.vars) }

/-- `declare_var` (objtree.rs:1080-1106) -/
def Builder.declareVar (b : Builder V P) (ty : Nat) (name : Ident) (value : V) : Option (Builder V P) :=
  if ty < b.inner.graph.length then
    some
      { inner := b.inner.modify ty (insertVar name value (some b.next))
        next := b.next + 1 }
  else none

/-- `override_var` (objtree.rs:1108-1128) -/
def Builder.overrideVar (b : Builder V P) (ty : Nat) (name : Ident) (value : V) : Option (Builder V P) :=
  if ty < b.inner.graph.length then
    some { b with inner := b.inner.modify ty (insertVar name value none) }
  else none

/-- the end of `register_var` (objtree.rs:1196-1220), used for the built-in variables: the first
registration stays -/
def Builder.registerVar (b : Builder V P) (ty : Nat) (name : Ident) (value : V) (isDecl : Bool) :
    Option (Builder V P) :=
  match b.inner.graph[ty]? with
  | none => none
  | some n =>
    match mget name n.vars with
    | some _ => some b
    | none =>
      if isDecl then
        some
          { inner := b.inner.modify ty fun n => { n with vars := iset name ⟨value, some b.next⟩ n.vars }
            next := b.next + 1 }
      else some { b with inner := b.inner.modify ty fun n => { n with vars := iset name ⟨value, none⟩ n.vars } }

/-- the proc entry after `register_proc` (objtree.rs:1240-1302): a declaration goes to the front of values
registered before it -/
def addProcValue (tp : TypeProc P) (isDecl : Bool) (id : Nat) (value : P) : TypeProc P :=
  { value := if isDecl ∧ tp.value ≠ [] then value :: tp.value else tp.value ++ [value]
    decl := match isDecl, tp.decl with
      | true, none => some id
      | _, d => d }

/-- `register_proc` (objtree.rs:1228-1303) -/
def Builder.registerProc (b : Builder V P) (ty : Nat) (name : Ident) (isDecl : Bool) (value : P) :
    Option (Builder V P) :=
  match b.inner.graph[ty]? with
  | none => none
  | some n =>
    let tp := (mget name n.procs).getD ⟨[], none⟩
    some
      { inner := b.inner.modify ty fun n => { n with procs := iset name (addProcValue tp isDecl b.next value) n.procs }
        next := if isDecl ∧ tp.decl = none then b.next + 1 else b.next }

/-! ## Lookups -/

/-- `ObjectTree::find` (objtree.rs:745-750) -/
def Tree.find (t : Tree V P) (path : List Char) : Option Nat :=
  if path = [] then some 0 else mget path t.types

/-- `Type::name` (objtree.rs:146-152) -/
def Node.name (n : Node V P) : List Char :=
  if n.path = [] then [] else n.path.drop (n.lastSlash + 1)

/-- `Type::parent_path_str` (objtree.rs:154-156), for types other than the root -/
def Node.parentPathStr (n : Node V P) : List Char := n.path.take n.lastSlash

/-- `TypeRef::child` (objtree.rs:291-295) -/
def Tree.child (t : Tree V P) (i : Nat) (name : Ident) : Option Nat :=
  match t.graph[i]? with
  | none => none
  | some n => mget name n.children

/-- the loop of `type_by_path_approx` (objtree.rs:777-793) -/
def Tree.walkPath (t : Tree V P) : Bool → Nat → List Ident → Bool × Nat
  | _, cur, [] => (true, cur)
  | first, cur, each :: rest =>
    match t.child cur each with
    | some target =>
      if each = "list".toList ∧ first then (true, target) else Tree.walkPath t false target rest
    | none => (false, cur)

/-- `type_by_path_approx` (objtree.rs:772-794) -/
def Tree.typeByPathApprox (t : Tree V P) (path : List Ident) : Bool × Nat := t.walkPath true 0 path

/-- `type_by_path` (objtree.rs:763-770) -/
def Tree.typeByPath (t : Tree V P) (path : List Ident) : Option Nat :=
  let r := t.typeByPathApprox path
  if r.1 then some r.2 else none

/-- `ispath` (objtree.rs:223-230) -/
def ispath (path parent : List Char) : Bool :=
  let parent := (parent.reverse.dropWhile (· = '/')).reverse
  if parent.isPrefixOf path then
    match path.drop parent.length with
    | [] => true
    | c :: _ => c = '/'
  else false

/-! ## Parent types -/

/-- `TypeRef::parent_type`, `ObjectTree::parent_of` (objtree.rs:270-276, 759-761) -/
def Tree.parentOf (t : Tree V P) (i : Nat) : Option Nat :=
  match t.graph[i]? with
  | none => none
  | some n =>
    match n.parentType with
    | none => none
    | some p => if p < t.graph.length then some p else none

/-- the types that have no parent and cannot have one added (objtree.rs:904-912) -/
def rootless : List (List Char) :=
  ["/datum".toList, "/list".toList, "/alist".toList, "/savefile".toList, "/world".toList, "/vector".toList,
    "/pixloc".toList, "/callee".toList]

/-- what a `parent_type` variable evaluates to: a string or a path (as a string), or neither -/
inductive ParentVal where
  | path (s : List Char)
  | bad
deriving DecidableEq

/-- the path before the last slash (objtree.rs:942-946) -/
def parentDir (path : List Char) : List Char := (path.reverse.dropWhile (· ≠ '/')).tail.reverse

/-- the parent type name of a type that may have one (objtree.rs:936-990); `pv` is its `parent_type`
variable -/
def parentName (path : List Char) (pv : Option ParentVal) : List Char :=
  if path = "/atom".toList then "/datum".toList
  else if path = "/turf".toList ∨ path = "/area".toList then "/atom".toList
  else if path = "/obj".toList ∨ path = "/mob".toList then "/atom/movable".toList
  else
    let dflt :=
      if parentDir path = [] then (if path = "/client".toList then [] else "/datum".toList) else parentDir path
    match pv with
    | some (.path s) => s
    | _ => dflt

/-- the parent type of a type (objtree.rs:904-1005); `eval` evaluates the `parent_type`
variable of the type of a path (objtree.rs:947-988) -/
def Tree.parentIndex (t : Tree V P) (eval : List Char → TypeVar V → ParentVal) (path : List Char) (n : Node V P) : Nat :=
  if path ∈ rootless then 0
  else
    let s := parentName path ((mget "parent_type".toList n.vars).map (eval path))
    if path = "/client".toList ∧ s = [] then 0
    else (mget s t.types).getD 0

/-- one step of the loop of `assign_parent_types` (objtree.rs:902, 1007-1011); `orig` is the tree before the
loop, whose types and variables the loop does not change -/
def Tree.assignOne (orig : Tree V P) (eval : List Char → TypeVar V → ParentVal) (t : Tree V P) (e : List Char × Nat) :
    Tree V P :=
  match t.graph[e.2]? with
  | none => t
  | some n =>
    let idx := orig.parentIndex eval e.1 n
    { t with
      graph := t.graph.modify e.2 fun n => { n with parentType := some idx }
      redirected := if n.parentPath ≠ some idx then t.redirected ++ [e.2] else t.redirected }

/-- `assign_parent_types` (objtree.rs:901-1013) -/
def Tree.assignParents (t : Tree V P) (eval : List Char → TypeVar V → ParentVal) : Tree V P :=
  t.types.foldl (t.assignOne eval) t

/-! ## Inheritance -/

/-- a `while let Some(ty) = current` loop up the parent types: the first result of `f` -/
def Tree.climb {R : Type} (t : Tree V P) (f : Nat → Node V P → Option R) : Nat → Nat → Option (Option R)
  | 0, _ => none
  | fuel + 1, i =>
    match t.graph[i]? with
    | none => some none
    | some n =>
      match f i n with
      | some r => some (some r)
      | none =>
        match t.parentOf i with
        | none => some none
        | some p => Tree.climb t f fuel p

/-- `get_value` (objtree.rs:189-202) -/
def Tree.getValue (t : Tree V P) (name : Ident) : Nat → Nat → Option (Option V) :=
  t.climb fun _ n => (mget name n.vars).map TypeVar.value

/-- `get_var_declaration` (objtree.rs:204-219) -/
def Tree.getVarDeclaration (t : Tree V P) (name : Ident) : Nat → Nat → Option (Option Nat) :=
  t.climb fun _ n => (mget name n.vars).bind TypeVar.decl

/-- `get_proc_declaration` (objtree.rs:474-485) -/
def Tree.getProcDeclaration (t : Tree V P) (name : Ident) : Nat → Nat → Option (Option Nat) :=
  t.climb fun _ n => (mget name n.procs).bind TypeProc.decl

/-- `ProcRef` (objtree.rs:572-578): the type, the list of values and the place in it -/
structure ProcRef (P : Type) where
  ty : Nat
  list : List P
  idx : Nat
deriving DecidableEq

/-- `get_proc` (objtree.rs:458-472); an empty list of values would panic, see `procs_nonempty` -/
def Tree.getProc (t : Tree V P) (name : Ident) : Nat → Nat → Option (Option (ProcRef P)) :=
  t.climb fun i n => (mget name n.procs).map fun tp => ⟨i, tp.value, tp.value.length - 1⟩

/-- `parent_proc` (objtree.rs:608-619) -/
def Tree.parentProc (t : Tree V P) (name : Ident) (fuel : Nat) (r : ProcRef P) : Option (Option (ProcRef P)) :=
  if r.idx ≠ 0 then some (some { r with idx := r.idx - 1 })
  else match t.parentOf r.ty with
    | none => some none
    | some p => t.getProc name fuel p

/-- `is_subtype_of` (objtree.rs:437-446) -/
def Tree.isSubtypeOf (t : Tree V P) (fuel i target : Nat) : Option Bool :=
  (t.climb (fun j _ => if j = target then some () else none) fuel i).map Option.isSome

/-- `iter_parent_types` collected (objtree.rs:343-358), also `visit_parent_types` (objtree.rs:335-341) -/
def Tree.iterParents (t : Tree V P) : Nat → Nat → Option (List Nat)
  | 0, _ => none
  | fuel + 1, i =>
    match t.parentOf i with
    | none => some [i]
    | some p => (Tree.iterParents t fuel p).map (i :: ·)

/-- the types `recurse_types` visits next (objtree.rs:319-332): children that keep this parent, then types
redirected to it -/
def Tree.subtypes (t : Tree V P) (i : Nat) : List Nat :=
  match t.graph[i]? with
  | none => []
  | some n =>
    (n.children.map Prod.snd).filter (fun c => (t.graph[c]?).any fun m => m.parentType = some i)
      ++ t.redirected.filter fun c => (t.graph[c]?).any fun m => m.parentType = some i

/-- `recurse_types` (objtree.rs:317-333): the types visited, in order -/
def Tree.recurseTypes (t : Tree V P) : Nat → Nat → Option (List Nat)
  | 0, _ => none
  | fuel + 1, i => ((t.subtypes i).mapM (Tree.recurseTypes t fuel)).map fun ls => i :: ls.flatten

/-! ## Paths -/

/-- `PathOp` -/
inductive PathOp where
  | slash | dot | colon
deriving DecidableEq

/-- `parent_path` (objtree.rs:261-267) -/
def Tree.parentPath (t : Tree V P) (i : Nat) : Option Nat :=
  match t.graph[i]? with
  | none => none
  | some n => if n.path = [] then none else n.parentPath

/-- `navigate` with `.` (objtree.rs:375-384) -/
def Tree.navDot (t : Tree V P) (name : Ident) : Nat → Nat → Option (Option Nat)
  | 0, _ => none
  | fuel + 1, i =>
    match t.child i name with
    | some c => some (some c)
    | none =>
      match t.parentPath i with
      | none => some none
      | some p => Tree.navDot t name fuel p

/-- the loop over the children: the first found -/
def firstFound (f : Nat → Option (Option Nat)) : List Nat → Option (Option Nat)
  | [] => some none
  | c :: cs =>
    match f c with
    | none => none
    | some (some r) => some (some r)
    | some none => firstFound f cs

/-- `navigate` with `:` (objtree.rs:386-399) -/
def Tree.navColon (t : Tree V P) (name : Ident) : Nat → Nat → Option (Option Nat)
  | 0, _ => none
  | fuel + 1, i =>
    match t.child i name with
    | some c => some (some c)
    | none =>
      match t.graph[i]? with
      | none => some none
      | some n => firstFound (Tree.navColon t name fuel) (n.children.map Prod.snd)

/-- `recurse` (objtree.rs:309-314): the types visited, in order -/
def Tree.recurse (t : Tree V P) : Nat → Nat → Option (List Nat)
  | 0, _ => none
  | fuel + 1, i =>
    match t.graph[i]? with
    | none => none
    | some n => ((n.children.map Prod.snd).mapM (Tree.recurse t fuel)).map fun ls => i :: ls.flatten

end

end Verif.Objtree
