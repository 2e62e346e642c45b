import Verif.Dmm.Text
import Verif.Debug.Frames

/-!
# Model of the command line tool (`crates/dmm-tools-cli/src/main.rs`)

`diff-maps`, `minimap` and `render-many`, with the map reader (C12, C13) and the drawing of a picture (C70) as
parameters.  Not modelled: the parsing of the other arguments, progress messages, the external optimizers,
`list-passes`, `map-info`.
-/

namespace Verif.Cli

open Verif.Dmm Verif.Debug

/-! ## diff-maps -/

section
variable {C : Type} [DecidableEq C]

/-- `==` of the variables of a prefab (`dmm.rs:170-175`), an `IndexMap`: the same number of entries, and each of
the left has the same value on the right, in whatever order -/
def varsEq (a b : List (List Char × C)) : Bool :=
  a.length == b.length && a.all fun kv => b.lookup kv.1 == some kv.2

/-- derived `==` of prefabs (`dmm.rs:170`) -/
def prefabEq (a b : Prefab C) : Bool := a.path == b.path && varsEq a.vars b.vars

/-- `==` of the lists of prefabs of a tile (`dmm-tools-cli/src/main.rs:396`) -/
def tileEq : List (Prefab C) → List (Prefab C) → Bool
  | [], [] => true
  | a :: as, b :: bs => prefabEq a b && tileEq as bs
  | _, _ => false

/-- `&map.dictionary[&map.grid[(z, y, x)]]` (`dmm-tools-cli/src/main.rs:392-395`); `none` is the panic of a key that is not in the
dictionary -/
def rawTile (m : Map C) (z y x : Nat) : Option (List (Prefab C)) :=
  (((m.grid[z]?).bind (·[y]?)).bind (·[x]?)).bind fun k => m.dict.lookup k

/-- the places of the loops (`dmm-tools-cli/src/main.rs:389-391`) -/
def cells (nz ny nx : Nat) : List (Nat × Nat × Nat) :=
  (List.range nz).flatMap fun z => (List.range ny).flatMap fun y => (List.range nx).map fun x => (x, y, z)

/-- is the tile different (`dmm-tools-cli/src/main.rs:392-396`)? -/
def cellDiffers (l r : Map C) (c : Nat × Nat × Nat) : Option Bool :=
  (rawTile l c.2.2 (l.dimY - c.2.1 - 1) c.1).bind fun a =>
    (rawTile r c.2.2 (r.dimY - c.2.1 - 1) c.1).map fun b => !tileEq a b

/-- the loop over the places with its output (`dmm-tools-cli/src/main.rs:389-402`) -/
def differing (l r : Map C) : List (Nat × Nat × Nat) → Option (List (Nat × Nat × Nat))
  | [] => some []
  | c :: cs => (cellDiffers l r c).bind fun d => (differing l r cs).map fun rest =>
      if d then (c.1 + 1, c.2.1 + 1, c.2.2 + 1) :: rest else rest

/-- what `diff-maps` prints: whether the sizes differ, and the places that differ -/
structure DiffReport where
  sizes : Option ((Nat × Nat × Nat) × (Nat × Nat × Nat))
  tiles : List (Nat × Nat × Nat)
deriving DecidableEq

/-- `DiffMaps` (`dmm-tools-cli/src/main.rs:370-403`) -/
def diffMaps (l r : Map C) : Option DiffReport :=
  (differing l r (cells (min l.dimZ r.dimZ) (min l.dimY r.dimY) (min l.dimX r.dimX))).map fun t =>
    ⟨if (l.dimX, l.dimY, l.dimZ) = (r.dimX, r.dimY, r.dimZ) then none
      else some ((l.dimX, l.dimY, l.dimZ), (r.dimX, r.dimY, r.dimZ)), t⟩

end

/-! ## Coordinates of the arguments -/

/-- `CoordArg` (`dmm-tools-cli/src/main.rs:446-452`) -/
structure CoordArg where
  x : Nat
  y : Nat
  z : Nat
deriving DecidableEq, Repr

/-- `Display` (`dmm-tools-cli/src/main.rs:454-462`) -/
def CoordArg.text (c : CoordArg) : Text :=
  if c.z ≠ 0 then showNat c.x ++ ',' :: showNat c.y ++ ',' :: showNat c.z else showNat c.x ++ ',' :: showNat c.y

/-- `str::split(',')` -/
def splitComma : Text → List Text
  | [] => [[]]
  | c :: cs =>
    if c = ',' then [] :: splitComma cs
    else match splitComma cs with
      | [] => [[c]]
      | w :: ws => (c :: w) :: ws

/-- all parts as numbers, or none (`dmm-tools-cli/src/main.rs:468-472`) -/
def allNumbers : List Text → Option (List Nat)
  | [] => some []
  | w :: ws => (parseUsize w).bind fun n => (allNumbers ws).map (n :: ·)

/-- `FromStr` (`dmm-tools-cli/src/main.rs:464-487`) -/
def CoordArg.parse (s : Text) : Option CoordArg :=
  match allNumbers (splitComma s) with
  | some [x, y] => some ⟨x, y, 0⟩
  | some [x, y, z] => some ⟨x, y, z⟩
  | _ => none

/-- `clamp` (`dmm-tools-cli/src/main.rs:489-497`) -/
def clamp (val lo hi : Nat) : Nat := if val < lo then lo else if val > hi then hi else val

/-- the region of a map that is drawn (`dmm-tools-cli/src/main.rs:282-294`), counted from 1, both ends included -/
def region (lo hi : Option CoordArg) (dim : CoordArg) : CoordArg × CoordArg :=
  let lo := lo.getD ⟨0, 0, 0⟩
  let hi := hi.getD ⟨dim.x + 1, dim.y + 1, dim.z + 1⟩
  let lo : CoordArg := ⟨clamp lo.x 1 dim.x, clamp lo.y 1 dim.y, clamp lo.z 1 dim.z⟩
  (lo, ⟨clamp hi.x lo.x dim.x, clamp hi.y lo.y dim.y, clamp hi.z lo.z dim.z⟩)

/-! ## minimap -/

/-- the file after writes in some order: the last write stays -/
def written {α : Type} (writes : List (Text × α)) (name : Text) : Option α :=
  (writes.reverse.find? fun w => w.1 = name).map (·.2)

/-- the ending of the files -/
def png : Text := ['.', 'p', 'n', 'g']

/-- the name of a picture (`dmm-tools-cli/src/main.rs:317-322`) without the directory -/
def minimapName (stem : Text) (z : Nat) : Text := stem ++ '-' :: showNat z ++ png

section
variable {M I : Type} (dims : M → CoordArg) (draw : M → Nat → Nat × Nat → Nat × Nat → Option I)

/-- the pictures of the levels from `z`, `n` of them (`dmm-tools-cli/src/main.rs:297-324, 354-358`); `none` is a panic -/
def levels (stem : Text) (m : M) (lo hi : CoordArg) : Nat → Nat → Option (List (Text × I))
  | _, 0 => some []
  | z, n + 1 => (draw m (z - 1) (lo.x - 1, lo.y - 1) (hi.x - 1, hi.y - 1)).bind fun img =>
      (levels stem m lo hi (z + 1) n).map ((minimapName stem z, img) :: ·)

/-- one map (`dmm-tools-cli/src/main.rs:261-359`) -/
def minimapFile (lo hi : Option CoordArg) (stem : Text) (m : M) : Option (List (Text × I)) :=
  let r := region lo hi (dims m)
  levels draw stem m r.1 r.2 r.1.z (r.2.z + 1 - r.1.z)

/-- all maps in order, `none` for one that cannot be loaded (`dmm-tools-cli/src/main.rs:273-280, 361-367`): the exit status and the
files written; that the output directory can be made is assumed -/
def minimapCmd (lo hi : Option CoordArg) : List (Text × Option M) → Option (Nat × List (Text × I))
  | [] => some (0, [])
  | (_, none) :: fs => (minimapCmd lo hi fs).map fun r => (r.1 + 1, r.2)
  | (stem, some m) :: fs => (minimapFile dims draw lo hi stem m).bind fun ws =>
      (minimapCmd lo hi fs).map fun r => (r.1, ws ++ r.2)

/-! ## render-many -/

/-- `RenderManyChunk` (`dmm-tools-cli/src/main.rs:537-549`) -/
structure Chunk where
  z : Nat
  minX : Option Nat
  minY : Option Nat
  maxX : Option Nat
  maxY : Option Nat

/-- `chunk.max_x.unwrap_or(dim_x).min(dim_x) - 1` (`dmm-tools-cli/src/main.rs:647-650`); `none` is the underflow -/
def upper (given : Option Nat) (dim : Nat) : Option Nat :=
  if min (given.getD dim) dim = 0 then none else some (min (given.getD dim) dim - 1)

/-- `chunk.min_x.unwrap_or(1).max(1) - 1` (`dmm-tools-cli/src/main.rs:643-646`) -/
def lower (given : Option Nat) : Nat := max (given.getD 1) 1 - 1

/-- the name of the picture of a chunk (`dmm-tools-cli/src/main.rs:659-660`) -/
def chunkName (stem : Text) (z i : Nat) : Text :=
  stem ++ '_' :: 'z' :: showNat z ++ '_' :: 'c' :: 'h' :: 'u' :: 'n' :: 'k' :: showNat i ++ png

/-- the picture of a chunk (`dmm-tools-cli/src/main.rs:636-656`); `none` is a panic -/
def drawChunk (m : M) (c : Chunk) : Option I :=
  if c.z = 0 ∨ (dims m).z < c.z then none
  else (upper c.maxX (dims m).x).bind fun hx => (upper c.maxY (dims m).y).bind fun hy =>
    draw m (c.z - 1) (lower c.minX, lower c.minY) (hx, hy)

/-- one chunk per level (`dmm-tools-cli/src/main.rs:617-628`) -/
def defaultChunks (m : M) : List Chunk := (List.range (dims m).z).map fun z => ⟨z + 1, none, none, none, none⟩

/-- the chunks of a map, from number `i` (`dmm-tools-cli/src/main.rs:630-667`); the results are in the order of the chunks, whatever the
order of the work -/
def chunks (stem : Text) (m : M) : Nat → List Chunk → Option (List (Text × I))
  | _, [] => some []
  | i, c :: cs => (drawChunk dims draw m c).bind fun img =>
      (chunks stem m (i + 1) cs).map ((chunkName stem c.z i, img) :: ·)

/-- the maps in order (`dmm-tools-cli/src/main.rs:607-673`) -/
def renderMany : List (Text × M × Option (List Chunk)) → Option (List (List (Text × I)))
  | [] => some []
  | (stem, m, cs) :: fs => (chunks dims draw stem m 0 (cs.getD (defaultChunks dims m))).bind fun ws =>
      (renderMany fs).map (ws :: ·)

end

end Verif.Cli
