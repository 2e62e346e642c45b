import Verif.Editor.ViewModel
import Mathlib.Tactic.Linarith
import Mathlib.Tactic.FieldSimp
import Mathlib.Tactic.Ring
import Mathlib.Tactic.NormNum

/-!
# Theorems about the view of the map editor (C112)
-/

namespace Verif.Editor.View

/-! ## The tile under the mouse -/

theorem roundAway_near (q : ℚ) : |(roundAway q : ℚ) - q| ≤ 1 / 2 := by
  unfold roundAway
  split
  · have h1 := Int.floor_le (q + 1 / 2)
    have h2 := Int.lt_floor_add_one (q + 1 / 2)
    rw [abs_le]
    constructor <;> linarith
  · have h1 := Int.floor_le (-q + 1 / 2)
    have h2 := Int.lt_floor_add_one (-q + 1 / 2)
    push_cast
    rw [abs_le]
    constructor <;> linarith

/-- the place on the map that a place in the window shows, along one axis: the middle of the window shows the
center of the map, to the next whole pixel, and a pixel of the map is `zoom` pixels of the window -/
def place (center offset zoom : ℚ) : ℚ := (roundAway center : ℚ) + offset / zoom

theorem tileAxis_iff (center offset zoom : ℚ) (n : Int) :
    tileAxis center offset zoom = n ↔ 32 * n ≤ place center offset zoom ∧ place center offset zoom < 32 * n + 32 := by
  unfold tileAxis place
  rw [Int.floor_eq_iff]
  constructor
  · rintro ⟨h1, h2⟩
    exact ⟨by linarith, by linarith⟩
  · rintro ⟨h1, h2⟩
    exact ⟨by linarith, by linarith⟩

/-- **C112.** The tile under a place in the window is `(tx, ty)` exactly if the map that is selected is loaded, has
such a tile, and the place shown there is on it. -/
theorem tile_exact (v : View) (pos : Int × Int) (tx ty : Nat) :
    v.tileUnder pos = some (tx, ty) ↔
      ∃ m, v.maps[v.cur]? = some m ∧ m.ready = true ∧ tx < m.dims.1 ∧ ty < m.dims.2 ∧
        let px := place m.center.1 ((pos.1 - ((v.size.1 / 2 : Nat) : Int) : Int) : ℚ) v.zoom
        let py := place m.center.2 ((((v.size.2 / 2 : Nat) : Int) - pos.2 : Int) : ℚ) v.zoom
        (32 * (tx : ℚ) ≤ px ∧ px < 32 * (tx : ℚ) + 32) ∧ (32 * (ty : ℚ) ≤ py ∧ py < 32 * (ty : ℚ) + 32) := by
  unfold View.tileUnder
  cases hm : v.maps[v.cur]? with
  | none => simp
  | some m =>
    simp only
    cases hr : m.ready with
    | false => simp [hr]
    | true =>
      simp only [if_true]
      have ax := tileAxis_iff m.center.1 ((pos.1 - ((v.size.1 / 2 : Nat) : Int) : Int) : ℚ) v.zoom (tx : Int)
      have ay := tileAxis_iff m.center.2 ((((v.size.2 / 2 : Nat) : Int) - pos.2 : Int) : ℚ) v.zoom (ty : Int)
      simp only [Int.cast_natCast] at ax ay
      constructor
      · intro h
        split at h
        · next hc =>
          simp only [Option.some.injEq, Prod.mk.injEq] at h
          obtain ⟨h1, h2, h3, h4⟩ := hc
          refine ⟨m, rfl, hr, by omega, by omega, ax.1 (by omega), ay.1 (by omega)⟩
        · cases h
      · rintro ⟨m', e, _, h1, h2, h3, h4⟩
        injection e with e
        subst e
        have e1 := ax.2 h3
        have e2 := ay.2 h4
        rw [e1, e2, if_pos ⟨by omega, by omega, by omega, by omega⟩]
        simp

/-- **C112.** The whole map can be reached: every place inside it is on a tile, if it is shown somewhere. -/
theorem tile_covers (v : View) (pos : Int × Int) (m : MapView) (hm : v.maps[v.cur]? = some m) (hr : m.ready = true)
    (hx : 0 ≤ place m.center.1 ((pos.1 - ((v.size.1 / 2 : Nat) : Int) : Int) : ℚ) v.zoom ∧
      place m.center.1 ((pos.1 - ((v.size.1 / 2 : Nat) : Int) : Int) : ℚ) v.zoom < 32 * m.dims.1)
    (hy : 0 ≤ place m.center.2 ((((v.size.2 / 2 : Nat) : Int) - pos.2 : Int) : ℚ) v.zoom ∧
      place m.center.2 ((((v.size.2 / 2 : Nat) : Int) - pos.2 : Int) : ℚ) v.zoom < 32 * m.dims.2) :
    (v.tileUnder pos).isSome = true := by
  have key : ∀ (q : ℚ) (n : Nat), 0 ≤ q → q < 32 * n → ∃ t : Nat, t < n ∧ 32 * (t : ℚ) ≤ q ∧ q < 32 * (t : ℚ) + 32 := by
    intro q n h1 h2
    have f1 := Int.floor_le (q / 32)
    have f2 := Int.lt_floor_add_one (q / 32)
    have f0 : 0 ≤ ⌊q / 32⌋ := Int.floor_nonneg.2 (by linarith)
    obtain ⟨t, ht⟩ := Int.eq_ofNat_of_zero_le f0
    rw [ht] at f1 f2
    simp only [Int.cast_natCast] at f1 f2
    refine ⟨t, ?_, by linarith, by linarith⟩
    have : (t : ℚ) < n := by linarith
    exact_mod_cast this
  obtain ⟨tx, a1, a2⟩ := key _ _ hx.1 hx.2
  obtain ⟨ty, b1, b2⟩ := key _ _ hy.1 hy.2
  rw [(tile_exact v pos tx ty).2 ⟨m, hm, hr, a1, b1, a2, b2⟩]
  rfl

/-! ## The target is up to date -/

/-- a frame without the middle button; everything else may change what is under the mouse -/
def Quiet : Ev → Prop
  | .frame _ middle => middle = false
  | _ => False

theorem quiet_keeps (v : View) (e : Ev) (h : Quiet e) : (v.on e).target = v.target ∧ (v.on e).mouse = v.mouse ∧
    ∀ pos, (v.on e).tileUnder pos = v.tileUnder pos := by
  cases e with
  | frame captured middle =>
    have : middle = false := h
    subst this
    have e : v.frame captured false = { v with drag := none } := by
      unfold View.frame
      simp
    simp only [View.on, e]
    exact ⟨trivial, trivial, fun _ => rfl⟩
  | _ => cases h

/-- the event tells the editor where the mouse is -/
def OfMouse : Ev → Prop
  | .moved _ => True
  | .wheel .. => True
  | _ => False

/-- **C112.** After the mouse was moved or its wheel was turned, until something else changes the view, clicks act on
the tile under the mouse. -/
theorem target_current (v : View) (e : Ev) (he : OfMouse e) (fs : List Ev) (hf : ∀ f ∈ fs, Quiet f) :
    ((e :: fs).foldl View.on v).target = ((e :: fs).foldl View.on v).tileUnder ((e :: fs).foldl View.on v).mouse := by
  have key : ∀ (fs : List Ev) (v : View), (∀ f ∈ fs, Quiet f) → v.target = v.tileUnder v.mouse →
      (fs.foldl View.on v).target = (fs.foldl View.on v).tileUnder (fs.foldl View.on v).mouse := by
    intro fs
    induction fs with
    | nil => intro v _ h; exact h
    | cons f fs ih =>
      intro v hf h
      obtain ⟨a, b, c⟩ := quiet_keeps v f (hf f List.mem_cons_self)
      exact ih _ (fun g hg => hf g (List.mem_cons_of_mem _ hg)) (by rw [a, b, c, h])
  rw [List.foldl_cons]
  refine key fs _ hf ?_
  cases e with
  | moved pos => rfl
  | wheel ctrl shift alt x y => rfl
  | _ => cases he

/-! ## Zoom, scrolling and dragging -/

/-- **C112.** Whatever the user does, the zoom is one of the nine levels from 1/16 to 16. -/
theorem zoom_levels (size : Nat × Nat) (es : List Ev) :
    ∃ k : Nat, k ≤ 8 ∧ ((es.foldl View.on (View.new size)).zoom = 2 ^ k / 16) := by
  have hin : ∀ v : View, (∃ k : Nat, k ≤ 8 ∧ v.zoom = 2 ^ k / 16) → ∃ k : Nat, k ≤ 8 ∧ v.zoomIn.zoom = 2 ^ k / 16 := by
    rintro v ⟨k, hk, h⟩
    unfold View.zoomIn
    split
    · next hlt =>
      refine ⟨k + 1, ?_, by rw [pow_succ]; simp only [h]; ring⟩
      by_cases h8 : k = 8
      · subst h8
        rw [h] at hlt
        norm_num at hlt
      · omega
    · exact ⟨k, hk, h⟩
  have hout : ∀ v : View, (∃ k : Nat, k ≤ 8 ∧ v.zoom = 2 ^ k / 16) → ∃ k : Nat, k ≤ 8 ∧ v.zoomOut.zoom = 2 ^ k / 16 := by
    rintro v ⟨k, hk, h⟩
    unfold View.zoomOut
    split
    · next hlt =>
      cases k with
      | zero =>
        rw [h] at hlt
        norm_num at hlt
      | succ k => exact ⟨k, by omega, by simp only [h]; rw [pow_succ]; ring⟩
    · exact ⟨k, hk, h⟩
  have step : ∀ (v : View) (e : Ev), (∃ k : Nat, k ≤ 8 ∧ v.zoom = 2 ^ k / 16) →
      ∃ k : Nat, k ≤ 8 ∧ (v.on e).zoom = 2 ^ k / 16 := by
    intro v e h
    cases e with
    | moved pos => exact h
    | maps ms c => exact h
    | resized s => exact h
    | zoomKey b => cases b with
      | true => exact hin v h
      | false => exact hout v h
    | zoomMenu k =>
      match k with
      | 0 => exact ⟨3, by omega, by norm_num [View.on, menuZoom]⟩
      | 1 => exact ⟨4, by omega, by norm_num [View.on, menuZoom]⟩
      | 2 => exact ⟨5, by omega, by norm_num [View.on, menuZoom]⟩
      | 3 => exact ⟨6, by omega, by norm_num [View.on, menuZoom]⟩
    | frame c m =>
      have : (v.frame c m).zoom = v.zoom := by
        unfold View.frame
        simp only
        split <;> rfl
      simp only [View.on, this]
      exact h
    | wheel ctrl shift alt x y =>
      cases alt with
      | false => exact h
      | true =>
        simp only [View.on, View.wheel, if_true]
        split
        · exact hin v h
        · split
          · exact hout v h
          · exact h
  have key : ∀ (es : List Ev) (v : View), (∃ k : Nat, k ≤ 8 ∧ v.zoom = 2 ^ k / 16) →
      ∃ k : Nat, k ≤ 8 ∧ (es.foldl View.on v).zoom = 2 ^ k / 16 := by
    intro es
    induction es with
    | nil => intro v h; exact h
    | cons e es ih => intro v h; exact ih _ (step v e h)
  exact key es _ ⟨4, by omega, by norm_num [View.new]⟩

theorem clamp_inside (m : MapView) (h : m.clamp.ready = true) :
    0 ≤ m.clamp.center.1 ∧ m.clamp.center.1 ≤ m.clamp.dims.1 * 32 ∧ 0 ≤ m.clamp.center.2 ∧
      m.clamp.center.2 ≤ m.clamp.dims.2 * 32 := by
  have h0 : m.ready = true := by
    unfold MapView.clamp at h
    by_cases hr : m.ready = true
    · exact hr
    · rw [if_neg hr] at h
      exact h
  unfold MapView.clamp
  simp only [h0, if_true]
  have a : (0 : ℚ) ≤ (m.dims.1 : ℚ) * 32 := by positivity
  have b : (0 : ℚ) ≤ (m.dims.2 : ℚ) * 32 := by positivity
  exact ⟨le_max_right _ _, max_le (min_le_right _ _) a, le_max_right _ _, max_le (min_le_right _ _) b⟩

/-- **C112.** Scrolling leaves the center of the map inside the map. -/
theorem scroll_inside (v : View) (ctrl shift : Bool) (x y : ℚ) (m : MapView)
    (hm : (v.wheel ctrl shift false x y).maps[v.cur]? = some m) (hr : m.ready = true) :
    0 ≤ m.center.1 ∧ m.center.1 ≤ m.dims.1 * 32 ∧ 0 ≤ m.center.2 ∧ m.center.2 ≤ m.dims.2 * 32 := by
  simp only [View.wheel, Bool.false_eq_true, if_false, View.scroll, List.getElem?_modify, if_true,
    Option.map_eq_map, Option.map_eq_some_iff] at hm
  obtain ⟨m0, _, rfl⟩ := hm
  exact clamp_inside _ hr

/-- **C112.** Where scrolling does not leave the map, the wheel moves the center by 1/zoom of its turn, eight times as
much with Shift; with Ctrl the axes are swapped and the direction reversed. -/
theorem scroll_exact (v : View) (ctrl shift : Bool) (x y : ℚ) (m : MapView) (hm : v.maps[v.cur]? = some m) :
    let f : ℚ := if shift then 8 else 1
    let c : ℚ × ℚ := if ctrl then (m.center.1 - f * y / v.zoom, m.center.2 - f * x / v.zoom)
      else (m.center.1 + f * x / v.zoom, m.center.2 + f * y / v.zoom)
    (0 ≤ c.1 ∧ c.1 ≤ m.dims.1 * 32 ∧ 0 ≤ c.2 ∧ c.2 ≤ m.dims.2 * 32 ∨ m.ready = false) →
      (v.wheel ctrl shift false x y).maps[v.cur]? = some { m with center := c } := by
  intro f c hc
  have hcl : (MapView.clamp { m with center := c }) = { m with center := c } := by
    unfold MapView.clamp
    rcases hc with ⟨h1, h2, h3, h4⟩ | h
    · simp only
      split
      · rw [min_eq_left h2, min_eq_left h4, max_eq_left h1, max_eq_left h3]
      · rfl
    · simp [h]
  simp only [View.wheel, Bool.false_eq_true, if_false, View.scroll, List.getElem?_modify, if_true,
    Option.map_eq_map, hm, Option.map_some]
  rw [← hcl]
  congr 2
  cases ctrl <;> cases shift <;> simp [c, f] <;> constructor <;> ring

/-- the place under a place of the window, before rounding to whole pixels -/
def shownAt (v : View) (m : MapView) (pos : Int × Int) : ℚ × ℚ :=
  (m.center.1 + ((pos.1 - ((v.size.1 / 2 : Nat) : Int) : Int) : ℚ) / v.zoom,
    m.center.2 + ((((v.size.2 / 2 : Nat) : Int) - pos.2 : Int) : ℚ) / v.zoom)

/-- **C112.** Dragging with the middle button takes the map along: what was under the mouse is under it again, wherever
it was moved to. -/
theorem drag_follows (v : View) (captured : Bool) (pos : Int × Int) (m : MapView) (hd : v.drag = some pos)
    (hm : v.maps[v.cur]? = some m) :
    ∃ m', (v.frame captured true).maps[v.cur]? = some m' ∧
      shownAt (v.frame captured true) m' v.mouse = shownAt v m pos ∧
      (v.frame captured true).drag = some v.mouse ∧
      ∀ i, i ≠ v.cur → (v.frame captured true).maps[i]? = v.maps[i]? := by
  have e : v.frame captured true = { v with
      drag := some v.mouse
      maps := v.maps.modify v.cur fun m =>
        { m with
          center := (m.center.1 - ((v.mouse.1 - pos.1 : Int) : ℚ) / v.zoom,
            m.center.2 + ((v.mouse.2 - pos.2 : Int) : ℚ) / v.zoom) } } := by
    unfold View.frame
    simp [hd, hm]
  rw [e]
  refine ⟨_, by simp [hm]; rfl, ?_, rfl, ?_⟩
  · simp only [shownAt, Prod.mk.injEq]
    push_cast
    constructor <;> ring
  · intro i hi
    simp only
    simp [List.getElem?_modify, Ne.symm hi]

/-- **C112.** Every way to change the zoom keeps what is in the middle of the window there. -/
theorem zoom_keeps_middle (v : View) (e : Ev) (he : match e with
    | .zoomKey _ => True
    | .zoomMenu _ => True
    | .wheel _ _ alt _ _ => alt = true
    | _ => False) :
    (v.on e).maps = v.maps ∧ (v.on e).cur = v.cur ∧ ∀ m,
      shownAt (v.on e) m ((((v.on e).size.1 / 2 : Nat) : Int), (((v.on e).size.2 / 2 : Nat) : Int)) =
        shownAt v m (((v.size.1 / 2 : Nat) : Int), ((v.size.2 / 2 : Nat) : Int)) := by
  have hi : v.zoomIn.maps = v.maps ∧ v.zoomIn.cur = v.cur := by
    unfold View.zoomIn
    split <;> exact ⟨rfl, rfl⟩
  have ho : v.zoomOut.maps = v.maps ∧ v.zoomOut.cur = v.cur := by
    unfold View.zoomOut
    split <;> exact ⟨rfl, rfl⟩
  have key : (v.on e).maps = v.maps ∧ (v.on e).cur = v.cur := by
    cases e with
    | zoomKey b => cases b with
      | true => exact hi
      | false => exact ho
    | zoomMenu k => exact ⟨rfl, rfl⟩
    | wheel c s alt x y =>
      have : alt = true := he
      subst this
      simp only [View.on, View.wheel, if_true]
      split
      · exact hi
      · split
        · exact ho
        · exact ⟨rfl, rfl⟩
    | _ => exact he.elim
  exact ⟨key.1, key.2, fun m => by simp [shownAt]⟩

/-! ## Where the editor goes wrong -/

/-- two maps, one of 10 by 10 tiles and one of 4 by 4 -/
def demo : View :=
  { maps := [⟨(160, 160), (10, 10), true⟩, ⟨(64, 64), (4, 4), true⟩], cur := 0, zoom := 1, size := (640, 480),
    mouse := (0, 0), target := none, drag := none }

/-- with the mouse on tile (8, 7) of the large map -/
example : (demo.on (.moved (430, 150))).target = some (8, 7) ∧
    (demo.on (.moved (430, 150))).tileUnder (430, 150) = some (8, 7) := by decide +kernel

/-- **C112, disagreement.** Zooming with the keyboard or the menu does not look where the mouse is: until it is moved,
a click acts on a tile that is not under it. -/
theorem zoom_is_stale : let v := (demo.on (.moved (430, 150))).on (.zoomKey true)
    v.target = some (8, 7) ∧ v.tileUnder v.mouse = some (6, 6) := by decide +kernel

/-- **C112, disagreement.** After another map was selected (with Ctrl+Tab, or by closing this one) a click acts on the
tile of the old map, which need not be on the new one. -/
theorem other_map_is_stale : let v := (demo.on (.moved (430, 150))).on (.maps demo.maps 1)
    v.target = some (8, 7) ∧ ¬ (∃ m, v.maps[v.cur]? = some m ∧ 8 < m.dims.1) := by
  refine ⟨by decide +kernel, ?_⟩
  rintro ⟨m, hm, h⟩
  have : demo.maps[1]? = some m := hm
  simp only [demo, List.getElem?_cons_succ, List.getElem?_cons_zero, Option.some.injEq] at this
  subst this
  simp at h

/-- **C112, disagreement.** Dragging, unlike scrolling, leaves the map. -/
theorem drag_leaves_the_map : let v := ((demo.on (.frame false true)).on (.moved (1000, 0))).on (.frame false true)
    ∃ m, v.maps[0]? = some m ∧ m.center = ((-840 : ℚ), (160 : ℚ)) := by
  refine ⟨⟨(-840, 160), (10, 10), true⟩, ?_, rfl⟩
  decide +kernel

/-- the hypotheses of `drag_follows` and `scroll_exact` are met -/
example : ∃ m, (demo.on (.frame false true)).drag = some (0, 0) ∧ demo.maps[demo.cur]? = some m ∧ m.ready = true := by
  exact ⟨_, by decide +kernel, rfl, rfl⟩

example : ∃ m, (demo.wheel true true false 1 2).maps[0]? = some m ∧ m.center = ((144 : ℚ), (152 : ℚ)) := by
  refine ⟨⟨(144, 152), (10, 10), true⟩, ?_, rfl⟩
  decide +kernel

end Verif.Editor.View
