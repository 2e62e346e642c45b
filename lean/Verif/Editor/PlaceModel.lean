import Verif.Editor.HistoryProps

/-!
# Model of the placement tool (`crates/spaceman-dmm/src/tools/place.rs`)

and of the mouse handling that drives it (editor.rs:903-936).  A frame of the interface is given by what was
clicked during it.
-/

namespace Verif.Editor.Place

/-! ## The palette -/

/-- `PaletteEntry` (place.rs:14-18); `icon` is the prefab the icon was made from (place.rs:21-27), `edit` the
copy in the window of the entry (edit_prefab.rs:5-8), if that is open -/
structure Entry (F : Type) where
  fab : F
  icon : F
  edit : Option F

variable {F : Type}

/-- `PaletteEntry::new` (place.rs:21-27) -/
def Entry.new (fab : F) : Entry F := { fab := fab, icon := fab, edit := none }

/-- what happens to an entry during a frame: a left or right click on its icon, "Apply" and "Remove" in its
window, what is done to the copy in the window (C109), closing the window -/
structure Act (F : Type) where
  left : Bool := false
  right : Bool := false
  apply : Bool := false
  remove : Bool := false
  shown : F → F := id
  close : Bool := false

/-- the palette and the index of the selected entry (place.rs:8-10) -/
structure Palette (F : Type) where
  entries : List (Entry F)
  cur : Nat

/-- the entry after a frame, and whether it is kept (place.rs:47-85) -/
def Entry.frame (e : Entry F) (a : Act F) : Entry F × Bool :=
  let e := if a.left then e else if a.right && e.edit.isNone then { e with edit := some e.fab } else e
  match e.edit with
  | none => (e, true)
  | some copy =>
    let e := if a.apply then { e with fab := copy } else e
    ({ e with edit := if a.close then none else some (a.shown copy) }, !a.remove)

/-- the loop over the palette (place.rs:41-92): what is left of the entries, and the selected index -/
def loop (acts : Nat → Act F) : Nat → Nat → List (Entry F) → List (Entry F) × Nat
  | _, cur, [] => ([], cur)
  | i, cur, e :: es =>
    let cur := if (acts i).left then i else cur
    let r := e.frame (acts i)
    let cur := if !r.2 && decide (i < cur) then cur - 1 else cur
    let rest := loop acts (i + 1) cur es
    (if r.2 then r.1 :: rest.1 else rest.1, rest.2)

/-- `settings` up to the "+" button (place.rs:31-92) -/
def Palette.frame (p : Palette F) (acts : Nat → Act F) : Palette F :=
  let r := loop acts 0 p.cur p.entries
  { entries := r.1, cur := r.2 }

/-- the menu behind "+" (place.rs:104-118): with shift its window is opened at once -/
def Palette.add (p : Palette F) (fab : F) (shift : Bool) : Palette F :=
  { entries := p.entries ++ [{ Entry.new fab with edit := if shift then some fab else none }]
    cur := p.entries.length }

variable [DecidableEq F]

/-- `pick` (place.rs:149-158) -/
def Palette.pick (p : Palette F) (fab : F) : Palette F :=
  match p.entries.findIdx? (fun e => e.fab = fab) with
  | some i => { p with cur := i }
  | none => { entries := p.entries ++ [Entry.new fab], cur := p.entries.length }

/-- the prefab that is placed: `self.palette.get(self.pal_current)` (place.rs:134) -/
def Palette.selected (p : Palette F) : Option F := p.entries[p.cur]?.map Entry.fab

/-! ## Strokes -/

/-- a place on the map -/
abbrev Loc := Nat × Nat × Nat

/-- `placing_at` (place.rs:11), `last_drag_tile` (editor.rs:47) and what was placed so far -/
structure Brush (F : Type) where
  placing : List Loc := []
  last : Option (Nat × Nat) := none
  placed : List (Loc × F) := []

/-- what the editor sees of the mouse in a frame: whether the interface wants it, whether there is an
environment and a map that is loaded, whether the left button was just pressed and whether it is down, the tile
under it, the level shown, and the prefab selected in the palette -/
structure Mouse (F : Type) where
  captured : Bool := false
  ready : Bool := true
  clicked : Bool := false
  down : Bool := true
  target : Option (Nat × Nat)
  z : Nat
  sel : Option F

/-- `drag` (place.rs:127-147) -/
def Brush.drag (b : Brush F) (sel : Option F) (loc : Loc) : Brush F :=
  if loc ∈ b.placing then b
  else
    { b with
      placing := b.placing ++ [loc]
      placed := match sel with
        | some fab => b.placed ++ [(loc, fab)]
        | none => b.placed }

/-- `click` (place.rs:122-125) -/
def Brush.click (b : Brush F) (sel : Option F) (loc : Loc) : Brush F :=
  { b with placing := [] }.drag sel loc

/-- the first half of the mouse handling (editor.rs:904-920) -/
def Brush.press (b : Brush F) (m : Mouse F) : Brush F :=
  match m.target with
  | some (x, y) =>
    if m.clicked && m.ready then { b.click m.sel (x, y, m.z) with last := some (x, y) } else b
  | none => b

/-- the second half (editor.rs:921-936) -/
def Brush.move (b : Brush F) (m : Mouse F) : Brush F :=
  match b.last, m.target with
  | some t, some (x, y) =>
    if m.down && m.ready && decide ((x, y) ≠ t) then { b.drag m.sel (x, y, m.z) with last := some (x, y) } else b
  | _, _ => b

/-- the mouse handling of a frame (editor.rs:903-936) -/
def Brush.frame (b : Brush F) (m : Mouse F) : Brush F :=
  if m.captured then b else (b.press m).move m

end Verif.Editor.Place
