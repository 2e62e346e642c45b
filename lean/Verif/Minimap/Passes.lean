import Verif.Minimap.Examples
import Verif.Minimap.PassModel

/-!
# C74: what a thing on the map shows, and what passes can do about it
-/

namespace Verif.Minimap

open Verif.Const Verif.Dmi

/-! ## The sprite of a thing -/

/-- the value of a numeric variable -/
def Number (a : Atom) (key : String) (n : Int) : Prop :=
  (|n| ≤ 2 ^ 24 ∧ a.var key = .float (F32.ofInt n)) ∨ (n = 0 ∧ ∀ f, a.var key ≠ .float f)

theorem Number.int {a : Atom} {key : String} {n : Int} (h : Number a key n) : a.int key = n := by
  unfold Atom.int
  rcases h with ⟨hn, h⟩ | ⟨rfl, h⟩
  · rw [h]
    simp only [Cst.toInt, F32.toI32_ofInt n hn, Option.getD_some]
  · generalize a.var key = c at h ⊢
    cases c <;> first | rfl | exact absurd rfl (h _)

/-- **C74.** The place of a thing relative to its tile is the sum of its offset variables. -/
theorem sprite_place (a : Atom) (s : Sprite) (h : fromVars a = some s) {px pw sx py pz sy : Int}
    (h1 : Number a "pixel_x" px) (h2 : Number a "pixel_w" pw) (h3 : Number a "step_x" sx)
    (h4 : Number a "pixel_y" py) (h5 : Number a "pixel_z" pz) (h6 : Number a "step_y" sy) :
    s.ofsX = px + pw + sx ∧ s.ofsY = py + pz + sy := by
  unfold fromVars at h
  rw [Option.map_eq_some_iff] at h
  obtain ⟨c, _, rfl⟩ := h
  simp only [h1.int, h2.int, h3.int, h4.int, h5.int, h6.int, and_self]

/-- **C74.** Its picture is named by `icon`, `icon_state` and `dir` (south unless one of the eight), and its depth by
`plane` and `layer` (0 and 2 unless they are numbers). -/
theorem sprite_look (a : Atom) (s : Sprite) (h : fromVars a = some s) :
    (∀ f, a.var "icon" = .resource f ∨ a.var "icon" = .string f → s.icon = f) ∧
    (∀ t, a.var "icon_state" = .string t → s.iconState = t) ∧
    ((∀ t, a.var "icon_state" ≠ .string t) → s.iconState = []) ∧
    (∀ d : Dir, a.var "dir" = .float (F32.ofInt d.toInt) → s.dir = d) ∧
    ((∀ f, a.var "dir" ≠ .float f) → s.dir = .south) ∧
    (∀ n : Int, |n| ≤ 2 ^ 24 → a.var "plane" = .float (F32.ofInt n) → s.plane = n) ∧
    ((∀ f, a.var "plane" ≠ .float f) → s.plane = 0) ∧
    (∀ f, a.var "layer" = .float f → s.layer = .ofF32 f) ∧
    ((∀ f, a.var "layer" ≠ .float f) → s.layer = ⟨2, 0⟩) ∧
    colorOf a = some s.color := by
  unfold fromVars at h
  rw [Option.map_eq_some_iff] at h
  obtain ⟨c, hc, rfl⟩ := h
  refine ⟨?_, ?_, ?_, ?_, ?_, ?_, ?_, ?_, ?_, hc⟩
  · rintro f (h | h) <;> simp only [h, asPathStr, Option.getD_some]
  · intro t h
    simp only [h, Cst.asStr, Option.getD_some]
  · intro h
    simp only
    generalize a.var "icon_state" = w at h
    cases w <;> first | rfl | exact absurd rfl (h _)
  · intro d h
    simp only [h, Cst.toInt, Option.bind_some]
    rw [F32.toI32_ofInt _ (by cases d <;> decide)]
    cases d <;> rfl
  · intro h
    simp only
    generalize a.var "dir" = w at h
    cases w <;> first | rfl | exact absurd rfl (h _)
  · intro n hn h
    simp only [planeOf, h, F32.toI32_ofInt n hn]
  · intro h
    simp only [planeOf]
  · intro f h
    simp only [layerOf, h]
  · intro h
    simp only [layerOf]

/-! ## Passes -/

theorem adjustAll_eq (a : Atom) (ps : List Pass) : ∀ s, adjustAll a ps s = ps.foldl (fun s p => p.adjust a s) s := by
  induction ps with
  | nil => intro s; rfl
  | cons p ps ih => intro s; exact ih _

theorem overlaysAll_eq (a : Atom) (ps : List Pass) :
    overlaysAll a ps = (ps.flatMap fun p => (p.overlays a).1, ps.flatMap fun p => (p.overlays a).2) := by
  induction ps with
  | nil => rfl
  | cons p ps ih => simp only [overlaysAll, ih, List.flatMap_cons]

theorem nbhdAll_eq (a : Atom) (n : List (List Atom)) (ps : List Pass) :
    nbhdAll a n ps = (ps.flatMap fun p => (p.nbhd a n).1, ps.all fun p => (p.nbhd a n).2) := by
  induction ps with
  | nil => rfl
  | cons p ps ih => simp only [nbhdAll, ih, List.flatMap_cons, List.all_cons]

/-- **C74.** What one thing puts on its tile: the underlays of all passes, what they draw from the neighbourhood, the
thing itself unless a pass took its place, then the overlays; every pass sees the sprite as adjusted by all passes one
after the other. -/
theorem thing_sprites (c : Ctx) (x y : Nat) (a : Atom) (s₀ : Sprite) (h : fromVars a = some s₀)
    (hlate : ∀ p ∈ c.passes, p.lateFilter a = true) (s : Sprite)
    (hs : s = c.passes.foldl (fun s p => p.adjust a s) s₀) (hicon : s.icon ≠ []) (n : List (List Atom))
    (hn : neighbors c x y GRID = some n) :
    atomSprites c x y a = some ((c.passes.flatMap fun p => (p.overlays { a with sprite := s }).1) ++
      (c.passes.flatMap fun p => (p.nbhd { a with sprite := s } n).1) ++
      (if ∀ p ∈ c.passes, (p.nbhd { a with sprite := s } n).2 = true then [s] else []) ++
      c.passes.flatMap fun p => (p.overlays { a with sprite := s }).2) := by
  unfold atomSprites
  rw [if_pos (List.all_eq_true.2 hlate), h, Option.bind_some]
  simp only [adjustAll_eq, ← hs]
  rw [if_neg hicon, hn, Option.map_some, overlaysAll_eq, nbhdAll_eq]
  simp only [List.all_eq_true]

/-- **C74.** A thing a late filter rejects, or without icon, shows nothing. -/
theorem thing_hidden (c : Ctx) (x y : Nat) (a : Atom) (s₀ : Sprite) (h : fromVars a = some s₀)
    (hid : (∃ p ∈ c.passes, p.lateFilter a = false) ∨ (c.passes.foldl (fun s p => p.adjust a s) s₀).icon = []) :
    atomSprites c x y a = some [] := by
  unfold atomSprites
  by_cases hl : c.passes.all (·.lateFilter a) = true
  · rw [if_pos hl, h, Option.bind_some]
    rcases hid with ⟨p, hp, e⟩ | hid
    · rw [List.all_eq_true] at hl
      rw [hl p hp] at e
      cases e
    · simp only [adjustAll_eq]
      rw [if_pos hid]
  · rw [if_neg hl]

/-- **C74.** The things of a tile, in the order of the map: a prefab is dropped when a path or early filter rejects it
or its type is unknown; otherwise come the things the passes replace it by, up to the first pass that removes it, and
then the thing itself if none does. -/
theorem prefab_things (find : Fab → Option Atom) (ps : List Pass) (f : Fab) :
    ((∃ p ∈ ps, p.pathFilter f.1 = false) ∨ find f = none ∨ (∃ a, find f = some a ∧ ∃ p ∈ ps, p.earlyFilter a = false) →
      fabAtoms find ps f = []) ∧
    ∀ a, find f = some a → (∀ p ∈ ps, p.pathFilter f.1 = true) → (∀ p ∈ ps, p.earlyFilter a = true) →
      ((∀ p ∈ ps, (p.expand a).2 = true) → fabAtoms find ps f = (ps.flatMap fun p => (p.expand a).1) ++ [a]) ∧
      ∀ pre p post, ps = pre ++ p :: post → (∀ q ∈ pre, (q.expand a).2 = true) → (p.expand a).2 = false →
        fabAtoms find ps f = (pre.flatMap fun q => (q.expand a).1) ++ (p.expand a).1 := by
  constructor
  · intro h
    unfold fabAtoms
    by_cases hp : ps.all (·.pathFilter f.1) = true
    · rw [if_pos hp]
      rcases h with ⟨p, hp', e⟩ | h | ⟨a, ha, p, hp', e⟩
      · rw [List.all_eq_true] at hp
        rw [hp p hp'] at e
        cases e
      · rw [h]
      · rw [ha]
        simp only
        rw [if_neg]
        intro hall
        rw [List.all_eq_true] at hall
        rw [hall p hp'] at e
        cases e
    · rw [if_neg hp]
  · intro a ha hp he
    have hf : fabAtoms find ps f = (expandAll a ps).1 ++ (if (expandAll a ps).2 then [a] else []) := by
      unfold fabAtoms
      rw [if_pos (List.all_eq_true.2 hp), ha]
      simp only
      rw [if_pos (List.all_eq_true.2 he)]
    have pre_lemma : ∀ pre post : List Pass, (∀ q ∈ pre, (q.expand a).2 = true) → expandAll a (pre ++ post) =
        ((pre.flatMap fun q => (q.expand a).1) ++ (expandAll a post).1, (expandAll a post).2) := by
      intro pre
      induction pre with
      | nil => intro post _; simp
      | cons q pre ih =>
        intro post h
        rw [List.cons_append, expandAll, if_pos (h q (by simp)), ih post fun r hr => h r (by simp [hr])]
        simp
    constructor
    · intro hall
      have := pre_lemma ps [] hall
      rw [List.append_nil] at this
      rw [hf, this]
      simp [expandAll]
    · intro pre p post hps hpre hpf
      rw [hf, hps, pre_lemma pre (p :: post) hpre, expandAll, if_neg (by rw [hpf]; simp)]
      simp

/-- the things of a tile are those of its prefabs, in order -/
theorem atomList_eq (find : Fab → Option Atom) (ps : List Pass) (fs : List Fab) :
    atomList find ps fs = fs.flatMap (fabAtoms find ps) := by
  induction fs with
  | nil => rfl
  | cons f fs ih => rw [atomList, ih, List.flatMap_cons]

/-- **C74.** The sprites of a tile are those of its things, in order. -/
theorem tile_sprites (c : Ctx) (x y : Nat) (as : List Atom) (f : Atom → List Sprite)
    (h : ∀ a ∈ as, atomSprites c x y a = some (f a)) :
    tileSprites c x y as = some ((as.flatMap f).map fun s => ⟨x, y, s⟩) := by
  induction as with
  | nil => rfl
  | cons a as ih =>
    rw [tileSprites, h a (by simp), Option.bind_some, ih fun b hb => h b (by simp [hb])]
    simp [List.flatMap_cons, List.map_append]

/-! ## Neighbours -/

/-- one step in a direction: columns to the east, rows to the north -/
def step : Dir → Int × Int
  | .north => (0, 1)
  | .south => (0, -1)
  | .east => (1, 0)
  | .west => (-1, 0)
  | .northeast => (1, 1)
  | .northwest => (-1, 1)
  | .southeast => (1, -1)
  | .southwest => (-1, -1)

/-- the things on the tile in column `x`, row `y` from the bottom; none outside the level -/
def things (c : Ctx) (x y : Int) : List Atom :=
  if 0 ≤ x ∧ x < c.dimX ∧ 0 ≤ y ∧ y < c.rows.length then
    (((c.rows[(c.rows.length - 1 - y : Int).toNat]?).bind (·[x.toNat]?)).bind c.atoms).getD []
  else []

theorem neighbor_things (c : Ctx) (tx ty : Nat) (hy : ty < c.rows.length) (d : Int × Int) (as : List Atom)
    (h : c.neighbor tx (c.rows.length - 1 - ty) d = some as) : as = things c (tx + d.1) (ty + d.2) := by
  unfold Ctx.neighbor at h
  simp only at h
  unfold things
  split at h
  · rename_i hc
    cases h
    rw [if_neg]
    omega
  · rename_i hc
    rw [if_pos (by omega)]
    have : ((c.rows.length : Int) - 1 - (ty + d.2)).toNat = (((c.rows.length - 1 - ty : Nat) : Int) - d.2).toNat := by omega
    rw [this, h]
    rfl

/-- **C74.** What a pass sees in a direction are the things on the tile next to the thing in that direction. -/
theorem neighborhood_directions (c : Ctx) (tx ty : Nat) (hy : ty < c.rows.length) (n : List (List Atom))
    (h : neighbors c tx (c.rows.length - 1 - ty) GRID = some n) :
    n.length = 9 ∧ center n = things c tx ty ∧
    ∀ d, offset n d = things c (tx + (step d).1) (ty + (step d).2) := by
  simp only [GRID, neighbors, Option.bind_eq_some_iff, Option.map_eq_some_iff, Option.some.injEq] at h
  obtain ⟨a0, h0, _, ⟨a1, h1, _, ⟨a2, h2, _, ⟨a3, h3, _, ⟨a4, h4, _, ⟨a5, h5, _, ⟨a6, h6, _, ⟨a7, h7, _, ⟨a8, h8, _, rfl,
    rfl⟩, rfl⟩, rfl⟩, rfl⟩, rfl⟩, rfl⟩, rfl⟩, rfl⟩, rfl⟩ := h
  have e (d : Int × Int) (as : List Atom) (h : c.neighbor tx (c.rows.length - 1 - ty) d = some as) :=
    neighbor_things c tx ty hy d as h
  refine ⟨rfl, ?_, fun d => ?_⟩
  · have := e _ _ h4
    simpa [center] using this
  · cases d
    · exact e _ _ h1
    · exact e _ _ h7
    · exact e _ _ h5
    · exact e _ _ h3
    · exact e _ _ h2
    · exact e _ _ h0
    · exact e _ _ h8
    · exact e _ _ h6

/-! ## Cases meeting the hypotheses -/

namespace Ex

/-- a thing on the map with all the offsets -/
def moved : Atom where
  path := "/obj/a".toList
  given := some [("pixel_x".toList, .float (F32.ofInt 3)), ("step_y".toList, .float (F32.ofInt (-7))),
    ("dir".toList, .float (F32.ofInt 4)), ("plane".toList, .float (F32.ofInt (-2)))]
  chain := [[("pixel_w".toList, some (.float (F32.ofInt 2))), ("icon".toList, some (.resource "dot.dmi".toList)),
    ("icon_state".toList, some (.string "b".toList))]]
  sprite := {}

example : ∃ s, fromVars moved = some s ∧ s.ofsX = 5 ∧ s.ofsY = -7 := by
  have none_of (key : String) (h : moved.var key = .null none) : Number moved key 0 :=
    .inr ⟨rfl, fun f e => by rw [h] at e; cases e⟩
  exact ⟨_, rfl, sprite_place moved _ rfl (px := 3) (pw := 2) (sx := 0) (py := 0) (pz := 0) (sy := -7)
    (.inl ⟨by decide, rfl⟩) (.inl ⟨by decide, rfl⟩) (none_of _ rfl) (none_of _ rfl) (none_of _ rfl)
    (.inl ⟨by decide, rfl⟩)⟩

example : ∃ s, fromVars moved = some s ∧ s.icon = "dot.dmi".toList ∧ s.iconState = "b".toList ∧ s.dir = .east ∧
    s.plane = -2 := by
  obtain ⟨h1, h2, _, h4, _, h6, _⟩ := sprite_look moved _ rfl
  exact ⟨_, rfl, h1 _ (.inl (rfl)), h2 _ (rfl), h4 .east (rfl),
    h6 (-2) (by decide) (rfl)⟩

/-- one pass moves everything up, the other adds a shadow underneath and takes the place of `/obj/b` -/
def up : Pass where
  adjust _ s := { s with ofsY := s.ofsY + 10 }

def shadow : Pass where
  overlays a := ([{ a.sprite with iconState := "shadow".toList }], [])
  nbhd a n := if a.path = "/obj/b".toList then ((center n).map (·.sprite), false) else ([], true)

def shadows : Ctx := { level with passes := [up, shadow] }

def plain : Atom where
  path := "/obj/a".toList
  given := none
  chain := [[("icon".toList, some (.resource "dot.dmi".toList))]]
  sprite := {}

example : ∃ s, atomSprites shadows 0 0 plain = some [{ s with iconState := "shadow".toList }, s] ∧ s.ofsY = 10 := by
  obtain ⟨n, hn⟩ : ∃ n, neighbors shadows 0 0 GRID = some n := ⟨_, rfl⟩
  refine ⟨_, thing_sprites shadows 0 0 plain _ rfl ?_ _ rfl ?_ n hn, rfl⟩
  · intro p hp
    simp only [shadows, List.mem_cons, List.not_mem_nil, or_false] at hp
    rcases hp with rfl | rfl <;> rfl
  · decide +kernel

example : atomSprites { level with passes := [up, { lateFilter := fun a => a.path ≠ "/obj/a".toList }] } 0 0 plain =
    some [] :=
  thing_hidden _ 0 0 plain _ rfl (.inl ⟨_, List.mem_cons_of_mem _ (List.mem_singleton.2 rfl), by decide +kernel⟩)

/-- a pass that replaces `/obj/a` by two things stops the passes after it -/
example (b c : Atom) (p q : Pass) (hp : ∀ a, p.expand a = ([b, c], false)) (hq : ∀ a, q.expand a = ([a], true))
    (f1 : ∀ x, p.pathFilter x = true ∧ q.pathFilter x = true) (f2 : ∀ x, p.earlyFilter x = true ∧ q.earlyFilter x = true)
    (f : Fab) : ∃ a, find f = some a ∧ fabAtoms find [q, p, q] f = [a, b, c] := by
  refine ⟨_, rfl, ?_⟩
  have := ((prefab_things find [q, p, q] f).2 _ rfl (by simp [f1]) (by simp [f2])).2 [q] p [q] rfl (by simp [hq])
    (by simp [hp])
  rw [this]
  simp [hp, hq]

/-- `shadow` sees the thing to the east -/
example (n : List (List Atom)) (h : neighbors level 0 0 GRID = some n) :
    (offset n .east).map (·.path) = ["/obj/b".toList] := by
  rw [(neighborhood_directions level 0 0 (by decide) n h).2.2]
  decide +kernel

end Ex

end Verif.Minimap
