import Mathlib.Data.List.Basic

/-!
# Model of the index of dmdoc (`build_index_tree`, crates/dmdoc/src/main.rs:1282-1364)

Strings are lists of characters; a slice `&s[..n]` is `take n`.
-/

namespace Verif.Dmdoc

abbrev Str := List Char

/-- `str::split('/')`. -/
def pieces : Str → List Str
  | [] => [[]]
  | c :: s =>
    if c = '/' then [] :: pieces s
    else match pieces s with
      | b :: bs => (c :: b) :: bs
      | [] => [[c]]

/-- `last_element` (main.rs:1362-1364). -/
def lastElement (s : Str) : Str := ((pieces s).getLast?).getD []

/-- `IndexTree` (main.rs:1282-1289) before it has children. -/
structure Entry where
  html : Str
  full : Str
  self : Str
  teaser : Str
  noSub : Bool
  deriving DecidableEq, Repr

/-- `IndexTree` (main.rs:1282-1289): what it was made with, `no_substance` and the children. -/
inductive ITree
  | node (e : Entry) (noSub : Bool) (children : List ITree)

/-- An element of the stack while the tree is built. -/
structure Frame where
  e : Entry
  noSub : Bool
  children : List ITree

/-- A new element (main.rs:1335-1342, 1347). -/
def Entry.frame (e : Entry) : Frame := ⟨e, e.noSub, []⟩

def Frame.tree (f : Frame) : ITree := .node f.e f.noSub f.children

/-- The body of the loop of `combine` (main.rs:1355-1358). -/
def Frame.adopt (last popped : Frame) : Frame :=
  { last with noSub := last.noSub && popped.noSub, children := last.children ++ [popped.tree] }

/-- `combine` (main.rs:1353-1360); the top of the stack is the head of the list.  It is never called with `to = 0`. -/
def combine (keep : Nat) : List Frame → List Frame
  | popped :: last :: rest =>
    if keep < rest.length + 2 then combine keep (last.adopt popped :: rest) else popped :: last :: rest
  | s => s
termination_by s => s.length

/-- The loop that determines the common position (main.rs:1313-1327): the names on the stack from `i` on, the remaining bits,
`i` and `len`. -/
def common (full : Str) : List Str → List Str → Nat → Nat → Nat × List Str × Nat
  | s :: ss, b :: bs, i, len =>
    if s ≠ full.take (len + b.length) then (i, b :: bs, len) else common full ss bs (i + 1) (len + (1 + b.length))
  | _, bs, i, len => (i, bs, len)

/-- The loop that pushes the ancestors (main.rs:1330-1344). -/
def between (full : Str) : List Str → Nat → List Entry
  | b :: c :: bs, len => ⟨[], full.take (len + b.length), b, [], true⟩ :: between full (c :: bs) (len + (1 + b.length))
  | _, _ => []

/-- The bits of the name and the length skipped (main.rs:1306-1312). -/
def firstBits (full : Str) : List Str × Nat :=
  match pieces full with
  | [] :: bs => (bs, 1)
  | bs => (bs, 0)

/-- One turn of the loop (main.rs:1303-1348). -/
def step (stack : List Frame) (each : Entry) : List Frame :=
  let b := firstBits each.full
  let r := common each.full (stack.reverse.tail.map fun f => f.e.full) b.1 1 b.2
  each.frame :: (((between each.full r.2.1 r.2.2).map Entry.frame).reverse ++ combine r.1 stack)

/-- The element the stack starts with (main.rs:1295-1302). -/
def rootFrame : Frame := ⟨⟨[], [], [], [], false⟩, false, []⟩

/-- `build_index_tree` (main.rs:1291-1351). -/
def buildIndexTree (es : List Entry) : List ITree :=
  match combine 1 (es.foldl step [rootFrame]) with
  | f :: _ => f.children
  | [] => []

/-! ## How it is shown -/

/-- A line of the index (`index_tree_elem`, template.rs:138-160): the grey prefix and the element whose name, link and teaser
are shown. -/
structure Row where
  lead : Str
  e : Entry
  grey : Bool
  deriving DecidableEq, Repr

mutual
/-- `index_tree_elem` (template.rs:138-160): the lines it makes; the markup is not modelled. -/
def ITree.rows : ITree → Str → List Row
  | .node e b cs, lead =>
    match cs with
    | [c] =>
      if e.html.isEmpty && e.teaser.isEmpty then c.rows (lead ++ e.self ++ ['/'])
      else ⟨lead, e, e.html.isEmpty && b⟩ :: c.rows []
    | cs => ⟨lead, e, e.html.isEmpty && b⟩ :: rowsAll cs
/-- `index_tree` (template.rs:128-136). -/
def rowsAll : List ITree → List Row
  | [] => []
  | t :: ts => t.rows [] ++ rowsAll ts
end

end Verif.Dmdoc
