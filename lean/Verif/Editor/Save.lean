import Verif.Editor.MapProps
import Mathlib.Data.List.Range

/-!
# Loading and saving a map in the editor (`AtomMap::new`, `AtomMap::save`; C48)

* `DictMap` is the editor's view of `dmm::Map` (dmm.rs:155-162): the dictionary as an association list
  (first match counts), the grid as a function of (z, y, x) raw coordinates; keys are numbers below 2^16.
* Rust's `HashMap`s iterate in an unspecified order: `save` takes the orders as arguments, and the
  theorems hold for all of them.
-/

set_option linter.unusedSectionVars false

namespace Verif.Editor

variable {P K V : Type} [DecidableEq P] [LinearOrder K]

/-- `dmm::Map` -/
structure DictMap (P : Type) where
  dimX : Nat
  dimY : Nat
  dimZ : Nat
  dict : List (Nat × List P)
  grid : Nat → Nat → Nat → Nat

/-- the contents of a tile; `none` is the panic of `dictionary[&key]` -/
def DictMap.tile (d : DictMap P) (z y x : Nat) : Option (List P) := d.dict.lookup (d.grid z y x)

/-- `add_pop` (map_repr.rs:180-196) on the table alone -/
def withPop (render : P → RPop K V) (pops : P → Option (RPop K V)) (fab : P) : P → Option (RPop K V) :=
  match pops fab with
  | some _ => pops
  | none => fun p => if p = fab then some (render fab) else pops p

/-- the inner loop of `AtomMap::new` (map_repr.rs:85-88) over a tile's prefabs -/
def loadTile (render : P → RPop K V) (dflt : V) (x y : Nat) :
    (P → Option (RPop K V)) × Level P V → List P → Option ((P → Option (RPop K V)) × Level P V)
  | s, [] => some s
  | s, fab :: fabs =>
    let pops' := withPop render s.1 fab
    match s.2.addUnsorted pops' dflt x y fab with
    | none => none
    | some r => loadTile render dflt x y (pops', r.1) fabs

/-- the loop of `AtomMap::new` over the tiles of a level (map_repr.rs:84-90); each entry is the raw
coordinates of a tile.  `Coord2::from_raw` gives x = raw x + 1 and y = dimY - raw y. -/
def loadTiles (render : P → RPop K V) (dflt : V) (d : DictMap P) (z : Nat) :
    (P → Option (RPop K V)) × Level P V → List (Nat × Nat) → Option ((P → Option (RPop K V)) × Level P V)
  | s, [] => some s
  | s, (y, x) :: cs =>
    match d.tile z y x with
    | none => none
    | some fabs =>
      match loadTile render dflt x (d.dimY - y - 1) s fabs with
      | none => none
      | some s' => loadTiles render dflt d z s' cs

/-- row-major order from the top left: `iter_top_down` (dmm.rs:300-305) -/
def topDown (d : DictMap P) : List (Nat × Nat) :=
  (List.range d.dimY).flatMap fun y => (List.range d.dimX).map fun x => (y, x)

/-- the loop of `AtomMap::new` over the levels (map_repr.rs:81-92) -/
def loadLevels (render : P → RPop K V) (dflt : V) (d : DictMap P) :
    AtomMap P K V → List Nat → Option (AtomMap P K V)
  | m, [] => some m
  | m, z :: zs =>
    match loadTiles render dflt d z (m.pops, Level.empty) (topDown d) with
    | none => none
    | some (pops', lv) =>
      match lv.sortAgain pops' with
      | none => none
      | some lv' => loadLevels render dflt d { m with
          pops := pops'
          levels := m.levels ++ [lv'] } zs

/-- `AtomMap::new` (map_repr.rs:71-94) -/
def AtomMap.new (render : P → RPop K V) (dflt : V) (d : DictMap P) : Option (AtomMap P K V) :=
  loadLevels render dflt d
    { sizeX := d.dimX
      sizeY := d.dimY
      pops := fun _ => none
      levels := [] } (List.range d.dimZ)

/-! ## Saving -/

/-- the `Vec` collected for a tile (map_repr.rs:101-109): the prefabs of the live instances there, in
slot order.  (The keys of `coords` are the tiles for which it is not empty.) -/
def AtomMap.tileAt (m : AtomMap P K V) (z y x : Nat) : List P :=
  match m.levels[z]? with
  | none => []
  | some lv =>
    (lv.liveSlots.filter fun p => p.2.x = x ∧ m.sizeY - 1 - p.2.y = y).map fun p => p.2.pop

/-- what `save` has while it fills the grid: output dictionary, reverse dictionary, next key to try,
grid -/
structure SaveState (P : Type) where
  dict : List (Nat × List P)
  rev : List (List P × Nat)
  key : Nat
  grid : Nat → Nat → Nat → Nat

/-- `Key::invalid()` (dmm.rs:364-366) -/
def invalidKey : Nat := 65535

/-- the merge with a base dictionary (map_repr.rs:122-143), its entries in iteration order, the last one
first: those whose tile occurs in the output are copied -/
def mergeBase (used : List P → Bool) (base : List (Nat × List P)) : List (Nat × List P) :=
  base.filter fun p => used p.2

/-- the reverse dictionary after the merge (map_repr.rs:125-143): every copied entry becomes the key of
its tile (the last one counts, hence latest first and `lookup`); tiles whose key is then
`Key::invalid()` are dropped again -/
def mergeRev (kept : List (Nat × List P)) : List (List P × Nat) :=
  let rev := kept.map fun p => (p.2, p.1)
  rev.filter fun p => rev.lookup p.1 ≠ some invalidKey

/-- the search for a free key (map_repr.rs:151-153); `none` is the overflow of `Key::next`; the fuel
bounds the number of keys -/
def freeKey (dict : List (Nat × List P)) : Nat → Nat → Option Nat
  | 0, _ => none
  | fuel + 1, key =>
    if (dict.lookup key).isSome then
      if key < 65535 then freeKey dict fuel (key + 1) else none
    else some key

/-- the loop filling the grid (map_repr.rs:146-158) -/
def fillGrid (tile : Nat → Nat → Nat → List P) : SaveState P → List (Nat × Nat × Nat) → Option (SaveState P)
  | s, [] => some s
  | s, (z, y, x) :: cs =>
    let t := tile z y x
    match s.rev.lookup t with
    | some k =>
      fillGrid tile { s with
        grid := fun z' y' x' => if z' = z ∧ y' = y ∧ x' = x then k else s.grid z' y' x' } cs
    | none =>
      match freeKey s.dict 65536 s.key with
      | none => none
      | some k =>
        fillGrid tile
          { dict := (k, t) :: s.dict
            rev := (t, k) :: s.rev
            key := k
            grid := fun z' y' x' => if z' = z ∧ y' = y ∧ x' = x then k else s.grid z' y' x' } cs

/-- every instance is inside the map: otherwise `save` panics (the subtraction at map_repr.rs:105, the
grid index at 148) -/
def AtomMap.inRange (m : AtomMap P K V) : Bool :=
  m.levels.all fun lv => lv.liveSlots.all fun p => p.2.x < m.sizeX && p.2.y < m.sizeY

/-- `AtomMap::save` (map_repr.rs:99-165) up to the key length.  `coords` is the iteration order of the
tiles that hold something, `base` the base map's dictionary in the iteration order of
`base_dictionary`, latest first (empty when there is no base map). -/
def AtomMap.save (m : AtomMap P K V) (base : List (Nat × List P)) (coords : List (Nat × Nat × Nat)) :
    Option (DictMap P) :=
  if m.inRange then
    let kept := mergeBase (fun t => coords.any fun c => m.tileAt c.1 c.2.1 c.2.2 = t) base
    (fillGrid m.tileAt
      { dict := kept
        rev := mergeRev kept
        key := 0
        grid := fun _ _ _ => 0 } coords).map fun s =>
      { dimX := m.sizeX
        dimY := m.sizeY
        dimZ := m.levels.length
        dict := s.dict
        grid := s.grid }
  else none

end Verif.Editor
