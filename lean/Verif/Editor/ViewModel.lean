import Mathlib.Data.Rat.Floor

/-!
# Model of the view of the map editor (`crates/spaceman-dmm/src/editor.rs`)

Which part of which map is shown, how large, and which tile the mouse is on.  Numbers that the program keeps as
`f32` are rationals here.  (Zoom factors are powers of two, so dividing by them is exact; centers are sums of
such quotients.)  Positions on the map are in pixels of the map, from the lower left, 32 for each tile.
-/

namespace Verif.Editor.View

/-- an open map: its center and size (`EditorMap`, editor.rs:73-90), and whether it is loaded -/
structure MapView where
  center : ℚ × ℚ
  dims : Nat × Nat
  ready : Bool
deriving DecidableEq

/-- the parts of `EditorScene` (editor.rs:28-70) that are about the view -/
structure View where
  maps : List MapView
  cur : Nat
  zoom : ℚ
  size : Nat × Nat
  mouse : Int × Int
  target : Option (Nat × Nat)
  drag : Option (Int × Int)

/-- `f32::round`: half away from zero -/
def roundAway (q : ℚ) : Int := if 0 ≤ q then ⌊q + 1 / 2⌋ else -⌊-q + 1 / 2⌋

/-- the tile at a place of the map, along one axis (editor.rs:1220-1225) -/
def tileAxis (center offset zoom : ℚ) : Int := ⌊((roundAway center : ℚ) + offset / zoom) / 32⌋

/-- `tile_under` (editor.rs:1215-1233) -/
def View.tileUnder (v : View) (pos : Int × Int) : Option (Nat × Nat) :=
  match v.maps[v.cur]? with
  | none => none
  | some m =>
    if m.ready then
      let cx : Int := ((v.size.1 / 2 : Nat) : Int)
      let cy : Int := ((v.size.2 / 2 : Nat) : Int)
      let tx := tileAxis m.center.1 ((pos.1 - cx : Int) : ℚ) v.zoom
      let ty := tileAxis m.center.2 ((cy - pos.2 : Int) : ℚ) v.zoom
      if 0 ≤ tx ∧ 0 ≤ ty ∧ tx < m.dims.1 ∧ ty < m.dims.2 then some (tx.toNat, ty.toNat) else none
    else none

/-- `mouse_moved` (editor.rs:1210-1213) -/
def View.moved (v : View) (pos : Int × Int) : View :=
  let v := { v with mouse := pos }
  { v with target := v.tileUnder pos }

/-- `zoom_in` and `Ctrl +` (editor.rs:1235-1239, 1315-1319) -/
def View.zoomIn (v : View) : View := if v.zoom < 16 then { v with zoom := v.zoom * 2 } else v

/-- `zoom_out` and `Ctrl -` (editor.rs:1241-1245, 1320-1324) -/
def View.zoomOut (v : View) : View := if v.zoom > 1 / 16 then { v with zoom := v.zoom * (1 / 2) } else v

/-- `clamp_center` (editor.rs:1609-1615) -/
def MapView.clamp (m : MapView) : MapView :=
  if m.ready then
    { m with center := (max (min m.center.1 (m.dims.1 * 32)) 0, max (min m.center.2 (m.dims.2 * 32)) 0) }
  else m

/-- scrolling (editor.rs:1257-1273) -/
def View.scroll (v : View) (ctrl shift : Bool) (x y : ℚ) : View :=
  let mul : ℚ := (if ctrl then -1 else 1) * (if shift then 8 else 1)
  let sy := mul * y / v.zoom
  let sx := mul * x / v.zoom
  { v with
    maps := v.maps.modify v.cur fun m =>
      ({ m with
         center := if ctrl then (m.center.1 + sy, m.center.2 + sx) else (m.center.1 + sx, m.center.2 + sy) } : MapView).clamp }

/-- `mouse_wheel` (editor.rs:1247-1275) -/
def View.wheel (v : View) (ctrl shift alt : Bool) (x y : ℚ) : View :=
  let v :=
    if alt then (if 0 < y then v.zoomIn else if y < 0 then v.zoomOut else v)
    else v.scroll ctrl shift x y
  { v with target := v.tileUnder v.mouse }

/-- dragging with the middle button, in a frame (editor.rs:947-954, 1118-1124) -/
def View.frame (v : View) (captured middle : Bool) : View :=
  let drag := if !captured && middle && v.drag.isNone then some v.mouse else v.drag
  let drag := if middle then drag else none
  match drag, v.maps[v.cur]? with
  | some pos, some _ =>
    { v with
      drag := some v.mouse
      maps := v.maps.modify v.cur fun m =>
        { m with
          center := (m.center.1 - ((v.mouse.1 - pos.1 : Int) : ℚ) / v.zoom,
            m.center.2 + ((v.mouse.2 - pos.2 : Int) : ℚ) / v.zoom) } }
  | _, _ => { v with drag := drag }

/-- what can happen -/
inductive Ev
  | moved (pos : Int × Int)
  | wheel (ctrl shift alt : Bool) (x y : ℚ)
  /-- `Ctrl +` or `Ctrl -`, or the same in the menu (editor.rs:609-623, 1315-1324) -/
  | zoomKey (larger : Bool)
  /-- 50%, 100%, 200%, 400% in the menu (editor.rs:624-632) -/
  | zoomMenu (k : Fin 4)
  | frame (captured middle : Bool)
  /-- maps are opened, closed, loaded or selected, or shown at another place by a click on a thumbnail -/
  | maps (maps : List MapView) (cur : Nat)
  /-- the window gets another size (main.rs:156-161) -/
  | resized (size : Nat × Nat)

/-- the levels of the menu -/
def menuZoom : Fin 4 → ℚ
  | 0 => 1 / 2
  | 1 => 1
  | 2 => 2
  | 3 => 4

def View.on (v : View) : Ev → View
  | .moved pos => v.moved pos
  | .wheel ctrl shift alt x y => v.wheel ctrl shift alt x y
  | .zoomKey true => v.zoomIn
  | .zoomKey false => v.zoomOut
  | .zoomMenu k => { v with zoom := menuZoom k }
  | .frame captured middle => v.frame captured middle
  | .maps maps cur => { v with maps := maps, cur := cur }
  | .resized size => { v with size := size }

/-- at the start (editor.rs:138-180, map_renderer.rs:78) -/
def View.new (size : Nat × Nat) : View :=
  { maps := [], cur := 0, zoom := 1, size := size, mouse := (0, 0), target := none, drag := none }

end Verif.Editor.View
