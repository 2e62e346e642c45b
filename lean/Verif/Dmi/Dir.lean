import Mathlib.Tactic.Common

/-!
# Directions (`crates/dreammaker/src/dmi.rs`, C31)
-/

namespace Verif.Dmi

/-- `Dir` (dmi.rs:41-52) -/
inductive Dir where
  | north | south | east | west | northeast | northwest | southeast | southwest
deriving DecidableEq, Repr

namespace Dir

/-- the discriminants; `to_int` (dmi.rs:89-91) -/
def toInt : Dir → Int
  | north => 1
  | south => 2
  | east => 4
  | west => 8
  | northeast => 5
  | northwest => 9
  | southeast => 6
  | southwest => 10

/-- `from_int` (dmi.rs:74-86) -/
def fromInt (n : Int) : Option Dir :=
  if n = 1 then some north
  else if n = 2 then some south
  else if n = 4 then some east
  else if n = 8 then some west
  else if n = 5 then some northeast
  else if n = 9 then some northwest
  else if n = 6 then some southeast
  else if n = 10 then some southwest
  else none

/-- `contains` (dmi.rs:93-95) -/
def contains (a b : Dir) : Bool := a.toInt.toNat &&& b.toInt.toNat != 0

/-- `is_diagonal` (dmi.rs:97-99) -/
def isDiagonal : Dir → Bool
  | north | south | east | west => false
  | _ => true

/-- `flip` (dmi.rs:101-112) -/
def flip : Dir → Dir
  | north => south
  | south => north
  | east => west
  | west => east
  | northeast => southwest
  | northwest => southeast
  | southeast => northwest
  | southwest => northeast

/-- `flip_ns` (dmi.rs:114-125) -/
def flipNs : Dir → Dir
  | north => south
  | south => north
  | east => east
  | west => west
  | northeast => southeast
  | northwest => southwest
  | southeast => northeast
  | southwest => northwest

/-- `flip_ew` (dmi.rs:127-138) -/
def flipEw : Dir → Dir
  | north => north
  | south => south
  | east => west
  | west => east
  | northeast => northwest
  | northwest => northeast
  | southeast => southwest
  | southwest => southeast

/-- `clockwise_45` (dmi.rs:140-151) -/
def cw45 : Dir → Dir
  | north => northeast
  | northeast => east
  | east => southeast
  | southeast => south
  | south => southwest
  | southwest => west
  | west => northwest
  | northwest => north

/-- `counterclockwise_45` (dmi.rs:153-164) -/
def ccw45 : Dir → Dir
  | north => northwest
  | northeast => north
  | east => northeast
  | southeast => east
  | south => southeast
  | southwest => south
  | west => southwest
  | northwest => west

/-- `clockwise_90` (dmi.rs:166-177) -/
def cw90 : Dir → Dir
  | north => east
  | south => west
  | east => south
  | west => north
  | northeast => southeast
  | northwest => northeast
  | southeast => southwest
  | southwest => northeast

/-- `counterclockwise_90` (dmi.rs:179-190) -/
def ccw90 : Dir → Dir
  | north => west
  | south => east
  | east => north
  | west => south
  | southeast => northeast
  | northeast => northwest
  | southwest => southeast
  | northwest => southwest

/-- `offset` (dmi.rs:193-204) -/
def offset : Dir → Int × Int
  | north => (0, 1)
  | south => (0, -1)
  | east => (1, 0)
  | west => (-1, 0)
  | northeast => (1, 1)
  | northwest => (-1, 1)
  | southeast => (1, -1)
  | southwest => (-1, -1)

/-- `CARDINALS` (dmi.rs:55), `DIAGONALS` (dmi.rs:56-61), `ALL` (dmi.rs:62-71) -/
def cardinals : List Dir := [north, south, east, west]
def diagonals : List Dir := [northeast, northwest, southeast, southwest]
def all : List Dir := [north, south, east, west, northeast, northwest, southeast, southwest]

/-! ## Theorems.  The specification is geometric: a direction is determined by its offset vector
(x to the east, y to the north). -/

/-- **C31.** The offset determines the direction; the offsets are exactly the eight non-zero vectors
with entries in -1, 0, 1. -/
theorem offset_exact (x y : Int) :
    (∃! d : Dir, d.offset = (x, y)) ↔ (-1 ≤ x ∧ x ≤ 1 ∧ -1 ≤ y ∧ y ≤ 1 ∧ (x, y) ≠ (0, 0)) := by
  constructor
  · rintro ⟨d, h, _⟩
    cases d <;> (simp only [offset, Prod.mk.injEq] at h; obtain ⟨rfl, rfl⟩ := h; decide)
  · rintro ⟨h1, h2, h3, h4, h5⟩
    have hx : x = -1 ∨ x = 0 ∨ x = 1 := by omega
    have hy : y = -1 ∨ y = 0 ∨ y = 1 := by omega
    rcases hx with rfl | rfl | rfl <;> rcases hy with rfl | rfl | rfl <;>
      first
      | exact absurd rfl h5
      | exact ⟨southwest, rfl, by intro d h; cases d <;> first | rfl | exact absurd h (by decide)⟩
      | exact ⟨west, rfl, by intro d h; cases d <;> first | rfl | exact absurd h (by decide)⟩
      | exact ⟨northwest, rfl, by intro d h; cases d <;> first | rfl | exact absurd h (by decide)⟩
      | exact ⟨south, rfl, by intro d h; cases d <;> first | rfl | exact absurd h (by decide)⟩
      | exact ⟨north, rfl, by intro d h; cases d <;> first | rfl | exact absurd h (by decide)⟩
      | exact ⟨southeast, rfl, by intro d h; cases d <;> first | rfl | exact absurd h (by decide)⟩
      | exact ⟨east, rfl, by intro d h; cases d <;> first | rfl | exact absurd h (by decide)⟩
      | exact ⟨northeast, rfl, by intro d h; cases d <;> first | rfl | exact absurd h (by decide)⟩

/-- **C31.** The integer of a direction has the bits north 1, south 2, east 4, west 8 of its offset. -/
theorem toInt_offset (d : Dir) :
    d.toInt = (if d.offset.2 = 1 then 1 else if d.offset.2 = -1 then 2 else 0) +
      (if d.offset.1 = 1 then 4 else if d.offset.1 = -1 then 8 else 0) := by
  cases d <;> rfl

/-- **C31.** `from_int` and `to_int` are inverse: `from_int` accepts exactly the integers of
directions. -/
theorem fromInt_iff (n : Int) (d : Dir) : fromInt n = some d ↔ n = d.toInt := by
  constructor
  · intro h
    unfold fromInt at h
    repeat' (split at h)
    all_goals first | cases h; assumption | cases h
  · rintro rfl
    cases d <;> rfl

/-- **C31.** Flips negate the offset, or one coordinate of it. -/
theorem flip_offset (d : Dir) :
    d.flip.offset = (-d.offset.1, -d.offset.2) ∧ d.flipNs.offset = (d.offset.1, -d.offset.2) ∧
      d.flipEw.offset = (-d.offset.1, d.offset.2) := by
  cases d <;> decide

/-- **C31.** Flips are involutions. -/
theorem flip_involutive (d : Dir) : d.flip.flip = d ∧ d.flipNs.flipNs = d ∧ d.flipEw.flipEw = d := by
  cases d <;> decide

/-- **C31.** A counterclockwise quarter turn rotates the offset. -/
theorem ccw90_offset (d : Dir) : d.ccw90.offset = (-d.offset.2, d.offset.1) := by
  cases d <;> decide

/-- **C31.** A clockwise quarter turn rotates the offset — for every direction but southwest. -/
theorem cw90_offset (d : Dir) (h : d ≠ southwest) : d.cw90.offset = (d.offset.2, -d.offset.1) := by
  cases d <;> first | exact absurd rfl h | decide

/-- **C31.** Eighth turns: two of them are a quarter turn (a right one), they are inverse to each
other, eight are nothing, four are `flip`. -/
theorem eighth_turns (d : Dir) :
    d.cw45.cw45.offset = (d.offset.2, -d.offset.1) ∧ d.ccw45.ccw45 = d.ccw90 ∧
      d.cw45.ccw45 = d ∧ d.ccw45.cw45 = d ∧ d.cw45.cw45.cw45.cw45 = d.flip ∧
      (d.cw45.isDiagonal = !d.isDiagonal) := by
  cases d <;> decide

/-- **C31.** `contains` says whether two directions share a cardinal direction. -/
theorem contains_iff (a b : Dir) :
    a.contains b = true ↔ (a.offset.1 = b.offset.1 ∧ a.offset.1 ≠ 0) ∨ (a.offset.2 = b.offset.2 ∧ a.offset.2 ≠ 0) := by
  cases a <;> cases b <;> decide

/-- **C31.** The constants list every direction once, by kind. -/
theorem constants_exact (d : Dir) :
    all.count d = 1 ∧ (d ∈ cardinals ↔ d.isDiagonal = false) ∧ (d ∈ diagonals ↔ d.isDiagonal = true) := by
  cases d <;> decide

/-- **Disagreement.** The clockwise quarter turn of southwest is northeast (it should be northwest),
so clockwise turns are not the inverse of counterclockwise ones, and not injective. -/
theorem cw90_southwest :
    southwest.cw90 = northeast ∧ southwest.cw45.cw45 = northwest ∧ southwest.cw90.ccw90 ≠ southwest ∧
      southwest.cw90 = northwest.cw90 := by decide

end Dir

end Verif.Dmi
