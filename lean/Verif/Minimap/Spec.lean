import Verif.Minimap.Model

/-!
# What a minimap should show (C70, C71)

Everything is in pixels of the whole level counted from its bottom left corner, as in the game: tile `(tx, ty)` has
its corner at `(32 tx, 32 ty)`.  Nothing here refers to clipping or to the top-left coordinates of the image.
-/

namespace Verif.Minimap

open Verif.Dmi

variable {D : Type}

/-- what a sprite on tile `(tx, ty)` puts at the place `(X, V)`: its frame stands with its bottom left corner at the
corner of the tile, moved by the offsets; `none` where it puts nothing -/
def stamp (icons : List Char → Option (Icon D)) (tx ty : Nat) (s : Sprite) (X V : Int) : Option Px :=
  (icons s.icon).bind fun ic =>
    (ic.info.rectOf ic.image.width (s.iconState, 0) s.dir 0).join.bind fun r =>
      let dx := X - (32 * tx + s.ofsX)
      let dy := V - (32 * ty + s.ofsY)
      if 0 ≤ dx ∧ dx < r.w ∧ 0 ≤ dy ∧ dy < r.h then
        (ic.image.at (r.x + dx.toNat) (r.y + (r.h - 1 - dy.toNat))).map (tint · s.color)
      else none

/-- stamps put one over the other, the first at the bottom -/
def paint : List (Option Px) → Px → Option Px
  | [], p => some p
  | none :: l, p => paint l p
  | some s :: l, p => (blend s p).bind (paint l)

/-- what the sort looks at -/
def depth (s : Sprite) : Int × Int × Nat := (s.plane, s.layer.whole, s.layer.frac)

/-- at least as deep: lower plane; same plane and lower layer; or same plane and layer -/
def Deeper (a b : Int × Int × Nat) : Prop :=
  a.1 < b.1 ∨ (a.1 = b.1 ∧ (a.2.1 < b.2.1 ∨ (a.2.1 = b.2.1 ∧ a.2.2 ≤ b.2.2)))

/-- `l'` is `l` in drawing order: by plane and layer, things at the same depth in their original order -/
structure DrawOrder (l l' : List Placed) : Prop where
  perm : l'.Perm l
  sorted : l'.Pairwise fun a b => Deeper (depth a.sprite) (depth b.sprite)
  stable : ∀ k, l'.filter (fun p => depth p.sprite = k) = l.filter fun p => depth p.sprite = k

/-- an icon file whose frames lie inside its image (C30 for files read from disk) -/
structure SheetOK (ic : Icon D) : Prop where
  image : ic.image.OK
  frames : ∀ st dir, ∃ o, ic.info.rectOf ic.image.width (st, 0) dir 0 = some o ∧
    ∀ r, o = some r → r.x + r.w ≤ ic.image.width ∧ r.y + r.h ≤ ic.image.height ∧ r.h = ic.info.height

/-- the sprites of the tiles of a rectangle: rows from the top, each from the left, the atoms of a tile in the order
of the map -/
def tiles (c : Ctx) (lo hi : Nat × Nat) (l : List Placed) : Prop :=
  ∃ look : Nat → Nat → List Placed,
    (∀ tx ty, lo.1 ≤ tx → tx ≤ hi.1 → lo.2 ≤ ty → ty ≤ hi.2 → ∃ key atoms,
      (c.rows[c.rows.length - 1 - ty]?).bind (·[tx]?) = some key ∧ c.atoms key = some atoms ∧
      tileSprites c tx (c.rows.length - 1 - ty) atoms = some (look tx ty)) ∧
    l = ((List.range' lo.2 (hi.2 + 1 - lo.2)).reverse.flatMap fun ty =>
      (List.range' lo.1 (hi.1 + 1 - lo.1)).flatMap fun tx => look tx ty)

end Verif.Minimap
