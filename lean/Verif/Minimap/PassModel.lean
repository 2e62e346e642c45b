import Verif.Minimap.Model
import Verif.Objtree.Paths

/-!
# Model of the render passes (`crates/dmm-tools/src/render_passes/`)

* The selection and configuration of passes, hiding, layer overrides, icon smoothing (2016, 2020, 2025), cables and
  random spawners.  Not modelled: the tables of names and states for particular objects of one game
  (`Overlays`, `Pretty`, `TransitTube`, `GravityGen`, the posters of `Random`).
* `none` is a panic (`ObjectTree::expect` of a missing type, an empty random range).
* `types` finds a type in the object tree.
* Random numbers are arguments.
-/

namespace Verif.Minimap

open Verif.Const Verif.Dmi Verif.Objtree

/-- `Atom::istype` (minimap.rs:286-288) -/
def Atom.istype (a : Atom) (parent : String) : Bool := ispath a.path parent.toList

/-- the index in `Neighborhood::offset` (minimap.rs:326-335) -/
def offIdx : Dir → Nat
  | .north => 1
  | .south => 7
  | .east => 5
  | .west => 3
  | .northeast => 2
  | .northwest => 0
  | .southeast => 8
  | .southwest => 6

/-- `Neighborhood::offset` (minimap.rs:325-336); the neighbourhood has nine entries -/
def offset (n : List (List Atom)) (d : Dir) : List Atom := n.getD (offIdx d) []

/-- `Neighborhood::center` (minimap.rs:321-323) -/
def center (n : List (List Atom)) : List Atom := n.getD 4 []

/-! ## Selection of passes -/

/-- name and default of every pass, `RENDER_PASSES` (mod.rs:114-207) -/
def RENDER_PASSES : List (String × Bool) :=
  [("hide-space", true), ("hide-areas", true), ("hide-invisible", true), ("random", true), ("pretty", true),
   ("spawners", true), ("overlays", true), ("transit-tube", true), ("gravity-gen", true), ("only-powernet", false),
   ("only-pipenet", false), ("fancy-layers", true), ("icon-smoothing-2016", false), ("icon-smoothing", true),
   ("icon-smoothing-2025", false), ("smart-cables", true), ("only-wires-and-pipes", false)]

/-- whether a pass is included (mod.rs:229-241) -/
def included (config : List (List Char × Bool)) (inc exc : List (List Char)) (p : String × Bool) : Bool :=
  if inc.any (· = p.1.toList) then true
  else if exc.any (· = p.1.toList) then false
  else if inc.any (· = "all".toList) then true
  else if exc.any (· = "all".toList) then false
  else match config.lookup p.1.toList with
    | some v => v
    | none => p.2

/-- `configure_list` (mod.rs:219-249): the names of the passes made, in order -/
def configureList (config : List (List Char × Bool)) (inc exc : List (List Char)) : List String :=
  (RENDER_PASSES.filter (included config inc exc)).map (·.1)

/-- `str::split(',')` -/
def splitComma : List Char → List (List Char)
  | [] => [[]]
  | c :: cs =>
    if c = ',' then [] :: splitComma cs
    else match splitComma cs with
      | [] => [[c]]
      | w :: ws => (c :: w) :: ws

/-- `configure` (mod.rs:209-217) -/
def configure (config : List (List Char × Bool)) (inc exc : List Char) : List String :=
  configureList config (splitComma inc) (splitComma exc)

/-! ## Layer overrides -/

/-- a slash is appended to a path without one (mod.rs:618-621, the same at 300-303) -/
def slashed (p : List Char) : List Char := if p.getLast? = some '/' then p else p ++ ['/']

/-- the first override that applies (mod.rs:684-688); `ov` are the configured overrides in the order
`FancyLayers::configure` (mod.rs:606-622) left them -/
def overrideFor (p : List Char) : List (List Char × F32) → Option Layer
  | [] => none
  | (key, v) :: rest => if ispath p (slashed key) then some (.ofF32 v) else overrideFor p rest

/-- the built-in layers (mod.rs:690-716) -/
def builtinLayer (p : List Char) : Option Layer :=
  let under (q : String) : Bool := ispath p q.toList
  if under "/turf/open/floor/plating/" || under "/turf/open/space/" then some ⟨-10, 0⟩
  else if under "/turf/closed/mineral/" then some ⟨-3, 0⟩
  else if under "/turf/open/floor/" || under "/turf/closed/" then some ⟨-2, 0⟩
  else if under "/turf/" then some ⟨-10, 0⟩
  else if under "/obj/effect/turf_decal/" then some ⟨-1, 0⟩
  else if under "/obj/structure/disposalpipe/" then some ⟨-6, 0⟩
  else if under "/obj/machinery/atmospherics/pipe/" && !(p.tails.any ("visible".toList.isPrefixOf ·)) then some ⟨-5, 0⟩
  else if under "/obj/structure/cable/" then some ⟨-4, 0⟩
  else if under "/obj/machinery/power/terminal/" then some (.ofF32 (.fin true (7 / 2)))
  else if under "/obj/structure/lattice/" then some ⟨-8, 0⟩
  else if under "/obj/machinery/navbeacon/" then some ⟨-3, 0⟩
  else none

/-- `fancy_layer_for_path` (mod.rs:683-717) -/
def fancyLayer (ov : List (List Char × F32)) (p : List Char) : Option Layer :=
  match overrideFor p ov with
  | some l => some l
  | none => builtinLayer p

/-- `apply_fancy_layer` (mod.rs:719-724) -/
def applyFancy (ov : List (List Char × F32)) (p : List Char) (s : Sprite) : Sprite :=
  match fancyLayer ov p with
  | some l => { s with plane := 0, layer := l }
  | none => { s with plane := 0 }

/-! ## Hiding -/

/-- `PartialEq<str> for Constant` (constants.rs:332-339) -/
def eqStr (c : Cst) (s : List Char) : Bool :=
  match c with
  | .string t => t = s
  | .resource t => t = s
  | _ => false

/-- `HideInvisible::early_filter` (mod.rs:310-338); `hide` are the configured paths -/
def hideInvisible (hide : List (List Char)) (a : Atom) : Bool :=
  if hide.any fun p => ispath a.path (slashed p) then false
  else if (match a.var "invisibility" with
      | .float f => F32.lt (F32.ofInt 60) f
      | _ => false) || a.istype "/obj/effect/mapping_helpers/" then false
  else if eqStr (a.var "icon") "icons/obj/items_and_weapons.dmi".toList &&
      eqStr (a.var "icon_state") "syndballoon".toList && !a.istype "/obj/item/toy/syndicateballoon/" then false
  else true

/-! ## Icon smoothing -/

/-- a bit of an `i32` is set: `flags & (1 << k) != 0` -/
def hasBit (flags : Int) (k : Nat) : Bool := flags / 2 ^ k % 2 = 1

/-- the flags of 2016 (icon_smoothing.rs:11-18): `1 << dir.to_int()` -/
def flag16 (d : Dir) : Nat := 2 ^ d.toInt.toNat

/-- the flags of 2020 and 2025 (icon_smoothing_2020.rs:15-22) -/
def flag20 : Dir → Nat
  | .north => 1
  | .south => 2
  | .east => 4
  | .west => 8
  | .northeast => 16
  | .southeast => 32
  | .southwest => 64
  | .northwest => 128

/-- `check_one` (icon_smoothing.rs:81-87) -/
def checkOne (flag : Dir → Nat) (find : Dir → Bool) (d : Dir) : Nat := if find d then flag d else 0

/-- one diagonal: only when both directions beside it are set (icon_smoothing.rs:93-108) -/
def checkDiag (flag : Dir → Nat) (find : Dir → Bool) (v h d : Dir) (adj : Nat) : Nat :=
  if adj &&& flag v ≠ 0 then
    if adj &&& flag h ≠ 0 then adj ||| checkOne flag find d else adj
  else adj

/-- `calculate_adjacencies` (icon_smoothing.rs:71-111; icon_smoothing_2020.rs:96-147 after the anchoring) -/
def adjacencies (flag : Dir → Nat) (find : Dir → Bool) : Nat :=
  let adj := 0 ||| checkOne flag find .north ||| checkOne flag find .south ||| checkOne flag find .east
    ||| checkOne flag find .west
  let adj := checkDiag flag find .north .west .northwest adj
  let adj := checkDiag flag find .north .east .northeast adj
  let adj := checkDiag flag find .south .west .southwest adj
  checkDiag flag find .south .east .southeast adj

/-- `smoothlist_contains` (icon_smoothing.rs:156-163) -/
def smoothlistContains (l : List (Cst × Option Cst)) (s : List Char) : Bool := l.any fun p => eqStr p.1 s

/-- `&path[..path.rfind('/')]` (icon_smoothing.rs:135): what is before the last slash.  A path without a slash would
panic, type paths have one. -/
def cutLast (path : List Char) : List Char := ((path.reverse.dropWhile (· ≠ '/')).drop 1).reverse

/-- the loop (icon_smoothing.rs:131-136): the path, what is before its last slash, and so on until nothing is left; every
step makes it shorter, so its length is fuel enough -/
def upsGo : Nat → List Char → List (List Char)
  | 0, _ => []
  | n + 1, path => if path = [] then [] else path :: upsGo n (cutLast path)

/-- the paths the loop looks at -/
def ups (path : List Char) : List (List Char) := upsGo path.length path

/-- `find_type_in_direction` of 2016 (icon_smoothing.rs:113-154) -/
def find16 (source : Atom) (n : List (List Atom)) (flags : Int) (d : Dir) : Bool :=
  let l := offset n d
  if l.isEmpty then hasBit flags 3
  else
    match source.var "canSmoothWith" with
    | .list args =>
      if hasBit flags 1 then l.any fun a => (ups a.path).any (smoothlistContains args.toList)
      else l.any fun a => smoothlistContains args.toList a.path
    | _ => l.any fun a => a.path = source.path

/-- two lists of constants have one in common: the sets of icon_smoothing_2020.rs:164-171 -/
def overlap (xs ys : List (Cst × Option Cst)) : Bool := xs.any fun x => ys.any fun y => x.1.beq y.1

/-- `find_type_in_direction` of 2020 (icon_smoothing_2020.rs:149-184), the same in 2025 -/
def find20 (source : Atom) (n : List (List Atom)) (flags : Int) (d : Dir) : Bool :=
  let l := offset n d
  if l.isEmpty then hasBit flags 3
  else
    match source.var "canSmoothWith" with
    | .list args =>
      l.any fun a =>
        match a.var "smoothing_groups" with
        | .list args2 => overlap args.toList args2.toList
        | _ => false
    | _ => l.any fun a => a.path = source.path

/-- the adjacencies in 2020 and 2025: nothing when unanchored (icon_smoothing_2020.rs:102-111) -/
def adjacencies20 (source : Atom) (n : List (List Atom)) (flags : Int) : Nat :=
  if source.istype "/atom/movable/" && ((source.var "can_be_unanchored").toBool && !(source.var "anchored").toBool) then 0
  else adjacencies flag20 (find20 source n flags)

/-- the corners (icon_smoothing.rs:172-177): number, vertical neighbour, horizontal one, the one between -/
def corners : List (String × (Dir × String) × (Dir × String) × Dir) :=
  [("1", (.north, "n"), (.west, "w"), .northwest), ("2", (.north, "n"), (.east, "e"), .northeast),
   ("3", (.south, "s"), (.west, "w"), .southwest), ("4", (.south, "s"), (.east, "e"), .southeast)]

/-- the state of one corner (icon_smoothing.rs:178-190) -/
def cornerState (flag : Dir → Nat) (adj : Nat) (c : String × (Dir × String) × (Dir × String) × Dir) : String :=
  if adj &&& flag c.2.1.1 ≠ 0 ∧ adj &&& flag c.2.2.1.1 ≠ 0 then
    if adj &&& flag c.2.2.2 ≠ 0 then c.1 ++ "-f" else c.1 ++ "-" ++ c.2.1.2 ++ c.2.2.1.2
  else if adj &&& flag c.2.1.1 ≠ 0 then c.1 ++ "-" ++ c.2.1.2
  else if adj &&& flag c.2.2.1.1 ≠ 0 then c.1 ++ "-" ++ c.2.2.1.2
  else c.1 ++ "-i"

/-- a copy of the sprite with another state, and `smooth_icon` when there is one (icon_smoothing.rs:192-199) -/
def smoothSprite (source : Atom) (state : List Char) : Sprite :=
  { source.sprite with iconState := state, icon := (asPathStr (source.var "smooth_icon")).getD source.sprite.icon }

/-- `cardinal_smooth` (icon_smoothing.rs:165-201) -/
def cardinalSmooth (flag : Dir → Nat) (source : Atom) (adj : Nat) : List Sprite :=
  corners.map fun c => smoothSprite source (cornerState flag adj c).toList

/-- the presets of `diagonal_smooth` (icon_smoothing.rs:211-229) -/
def presets (flag : Dir → Nat) (adj : Nat) : Option (String × String) :=
  if adj = flag .north ||| flag .west then some ("d-se", "d-se-0")
  else if adj = flag .north ||| flag .east then some ("d-sw", "d-sw-0")
  else if adj = flag .south ||| flag .west then some ("d-ne", "d-ne-0")
  else if adj = flag .south ||| flag .east then some ("d-nw", "d-nw-0")
  else if adj = flag .north ||| flag .west ||| flag .northwest then some ("d-se", "d-se-1")
  else if adj = flag .north ||| flag .east ||| flag .northeast then some ("d-sw", "d-sw-1")
  else if adj = flag .south ||| flag .west ||| flag .southwest then some ("d-ne", "d-ne-1")
  else if adj = flag .south ||| flag .east ||| flag .southeast then some ("d-nw", "d-nw-1")
  else none

/-- `reverse_ndir` (icon_smoothing.rs:276-303, icon_smoothing_2020.rs:326-348); `none` panics in 2016 -/
def reverseNdir (flag : Dir → Nat) (adj : Nat) : Option Dir :=
  if adj = flag .north then some .north
  else if adj = flag .south then some .south
  else if adj = flag .west then some .west
  else if adj = flag .east then some .east
  else if adj = flag .southeast ∨ adj = flag .south ||| flag .east ∨ adj = flag .south ||| flag .east ||| flag .southeast
    then some .southeast
  else if adj = flag .southwest ∨ adj = flag .south ||| flag .west ∨ adj = flag .south ||| flag .west ||| flag .southwest
    then some .southwest
  else if adj = flag .northeast ∨ adj = flag .north ||| flag .east ∨ adj = flag .north ||| flag .east ||| flag .northeast
    then some .northeast
  else if adj = flag .northwest ∨ adj = flag .north ||| flag .west ∨ adj = flag .north ||| flag .west ||| flag .northwest
    then some .northwest
  else none

/-- `Constant::index` with a string (constants.rs:285-291): the value associated with the first equal key -/
def indexStr (c : Cst) (key : List Char) : Option Cst :=
  match c with
  | .list args => (args.toList.find? fun p => (Cst.string key).beq p.1).bind (·.2)
  | _ => none

/-- the search for an open turf (icon_smoothing.rs:250-260) -/
def openTurf (n : List (List Atom)) : List Dir → Option Atom
  | [] => none
  | d :: ds =>
    match (offset n d).find? (·.istype "/turf/open/") with
    | some a => some a
    | none => openTurf n ds

/-- the turf underneath (icon_smoothing.rs:234-267), `diagonal_underlay` (icon_smoothing_2020.rs:285-324).  `strict`
says whether an unknown direction panics (2016) or adds nothing. -/
def underlay (types : List Char → Option Atom) (flag : Dir → Nat) (strict : Bool) (n : List (List Atom)) (source : Atom)
    (adj : Nat) : Option (List Sprite) :=
  if (indexStr (source.var "fixed_underlay") "space".toList).isSome then
    ((types "/turf/open/space/basic".toList).bind fromVars).map ([·])
  else
    match reverseNdir flag adj with
    | none => if strict then none else some []
    | some d =>
      let d := d.flip
      match openTurf n [d, d.ccw45, d.cw45] with
      | some a => (fromVars a).map ([·])
      | none => ((types "/turf/open/floor/plating".toList).bind fromVars).map ([·])

/-- `diagonal_smooth` (icon_smoothing.rs:203-274, icon_smoothing_2020.rs:240-283) -/
def diagonalSmooth (types : List Char → Option Atom) (flag : Dir → Nat) (strict : Bool) (n : List (List Atom))
    (source : Atom) (adj : Nat) : Option (List Sprite) :=
  match presets flag adj with
  | none => some (cardinalSmooth flag source adj)
  | some (a, b) =>
    (if source.istype "/turf/closed/wall/" then underlay types flag strict n source adj else some []).map fun u =>
      u ++ [smoothSprite source a.toList, smoothSprite source b.toList]

/-- `neighborhood_appearance` of 2016 with the default mask (icon_smoothing.rs:48-68) -/
def smooth16 (types : List Char → Option Atom) (a : Atom) (n : List (List Atom)) : Option (List Sprite × Bool) :=
  let flags := (a.var "smooth").toInt.getD 0
  if hasBit flags 0 || hasBit flags 1 then
    let adj := adjacencies flag16 (find16 a n flags)
    if hasBit flags 2 then (diagonalSmooth types flag16 true n a adj).map (·, false)
    else some (cardinalSmooth flag16 a adj, false)
  else some ([], true)

/-- `!is_null()` (constants.rs:202-204) -/
def notNull : Cst → Bool
  | .null _ => false
  | _ => true

/-- `bitmask_smooth` (icon_smoothing_2020.rs:353-402; `late` are the lines icon_smoothing_2025.rs:263-266) -/
def bitmaskSmooth (types : List Char → Option Atom) (late : Bool) (n : List (List Atom)) (a : Atom) (adj : Nat)
    (flags : Int) : Option (List Sprite × Bool) :=
  let finish (u : List Sprite) (diagonal : String) : List Sprite × Bool :=
    if late && notNull (a.var "post_init_icon_state") then (u, true)
    else
      (u ++ [smoothSprite a (((a.var "base_icon_state").asStr).getD [] ++ '-' :: (toString adj).toList ++ diagonal.toList)],
        false)
  if a.istype "/turf/open/floor/" then
    if (a.var "broken").toBool || (a.var "burnt").toBool then some ([], true) else some (finish [] "")
  else if a.istype "/turf/closed/" && (hasBit flags 2 && (reverseNdir flag20 adj).isSome) then
    (underlay types flag20 false n a adj).map (finish · "-d")
  else some (finish [] "")

/-- `neighborhood_appearance` of 2020 with the default mask (icon_smoothing_2020.rs:56-90) -/
def smooth20 (types : List Char → Option Atom) (a : Atom) (n : List (List Atom)) : Option (List Sprite × Bool) :=
  let flags := (a.var "smoothing_flags").toInt.getD 0
  if hasBit flags 0 then
    let adj := adjacencies20 a n flags
    if hasBit flags 2 then (diagonalSmooth types flag20 false n a adj).map (·, false)
    else some (cardinalSmooth flag20 a adj, false)
  else if hasBit flags 1 then bitmaskSmooth types false n a (adjacencies20 a n flags) flags
  else some ([], true)

/-- `neighborhood_appearance` of 2025 with the default mask (icon_smoothing_2025.rs:54-81) -/
def smooth25 (types : List Char → Option Atom) (a : Atom) (n : List (List Atom)) : Option (List Sprite × Bool) :=
  let flags := (a.var "smoothing_flags").toInt.getD 0
  if hasBit flags 1 then bitmaskSmooth types true n a (adjacencies20 a n flags) flags else some ([], true)

/-! ## Cables -/

/-- the layer of a cable (smart_cables.rs:21-24) -/
def cableLayer (a : Atom) : List Char := ((a.var "cable_layer").asStr).getD "l2".toList

/-- `Dir::CARDINALS` (dmi.rs:55) -/
def CARDINALS : List Dir := [.north, .south, .east, .west]

/-- a neighbouring tile is linked (smart_cables.rs:39-66) -/
def linked (a : Atom) (n : List (List Atom)) (d : Dir) : Bool :=
  let underTerminal := (center n).any (·.istype "/obj/machinery/power/terminal/")
  let underSmes := (center n).any fun b =>
    !b.istype "/obj/machinery/power/terminal/" && b.istype "/obj/machinery/power/smes/"
  let turf := offset n d
  if underSmes && turf.any (·.istype "/obj/machinery/power/terminal/") then false
  else if !underSmes && (underTerminal && turf.any (·.istype "/obj/machinery/power/smes/")) then false
  else turf.any fun b => b.istype "/obj/structure/cable/" && decide (cableLayer b = cableLayer a)

/-- `should_have_node` (smart_cables.rs:95-108) -/
def shouldHaveNode (turf : List Atom) : Bool :=
  turf.any fun b =>
    b.istype "/obj/structure/grille/" || b.istype "/obj/structure/cable_bridge/" || b.istype "/obj/machinery/power/"

/-- the state of a cable (smart_cables.rs:37-86) -/
def cableState (a : Atom) (n : List (List Atom)) : List Char :=
  let dirs := CARDINALS.filter (linked a n)
  if dirs = [] then cableLayer a ++ "-noconnection".toList
  else
    cableLayer a ++ dirs.flatMap (fun d => '-' :: (toString d.toInt).toList) ++
      (if 1 < dirs.length && shouldHaveNode (center n) then "-node".toList else [])

/-- `SmartCables::neighborhood_appearance` (smart_cables.rs:9-92) -/
def smartCables (a : Atom) (n : List (List Atom)) : List Sprite × Bool :=
  if !a.istype "/obj/structure/cable/" || a.istype "/obj/structure/cable/multilayer" then ([], true)
  else ([{ a.sprite with iconState := cableState a n }], false)

/-! ## Random spawners -/

/-- the weight of an element of a list (random.rs:210-215) -/
def weight (p : Cst × Option Cst) : Int := (p.2.getD (.null none)).toInt.getD 1

/-- the loop of `pickweight` (random.rs:219-229) -/
def pickLoop : List (Cst × Option Cst) → Int → Cst
  | [], _ => .null none
  | p :: ps, total => if total - weight p ≤ 0 then p.1 else pickLoop ps (total - weight p)

/-- `pickweight` (random.rs:207-230); `roll` is the random number from 1 to a bound, `none` is the panic of an empty
range.  `i32` overflow is not modelled. -/
def pickweight (roll : Int → Int) (l : List (Cst × Option Cst)) : Option Cst :=
  let total := (l.map weight).sum
  if total < 1 then none else some (pickLoop l (roll total))

/-- the loop over the loot (random.rs:63-84): what was picked.  `rng k` is the random number drawn when `k` more are to
follow. -/
def lootLoop (doubles : Bool) (rng : Nat → Int → Int) : Nat → List (Cst × Option Cst) → Option (List Cst)
  | 0, _ => some []
  | _ + 1, [] => some []
  | n + 1, p :: ps =>
    (pickweight (rng n) (p :: ps)).bind fun c =>
      (lootLoop doubles rng n (if doubles then p :: ps else (p :: ps).filter fun q => !q.1.beq c)).map (c :: ·)

/-- a loot drop (random.rs:51-86): the things that take its place; `types` is `type_by_path` -/
def lootDrop (types : TreePath → Option Atom) (rng : Nat → Int → Int) (a : Atom) : Option (List Atom) :=
  match a.var "loot" with
  | .list args =>
    (lootLoop (a.var "lootdoubles").toBool rng ((a.var "lootcount").toInt.getD 0).toNat args.toList).map fun picks =>
      picks.filterMap fun c =>
        match c with
        | .prefab path _ => types path
        | _ => none
  | _ => some []

end Verif.Minimap
