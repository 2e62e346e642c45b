import Verif.Minimap.Lemmas
import Verif.Minimap.Appear

/-!
# C70, C71: what a minimap shows, and regions of it
-/

namespace Verif.Minimap

open Verif.Const Verif.Dmi

variable {D : Type}

/-- **C70.** The picture of the rectangle of tiles from `lo` to `hi` has 32 pixels per tile, and the pixel that lies
`(X, V)` from its bottom left corner shows the stamps of the sprites of the tiles of the rectangle, painted over
transparency in drawing order: by plane, then layer, then in the order of the map. -/
theorem minimap_pixels (icons : List Char → Option (Icon D)) (hic : ∀ f ic, icons f = some ic → SheetOK ic)
    (c : Ctx) (lo hi : Nat × Nat) (h1 : lo.1 ≤ hi.1) (h2 : lo.2 ≤ hi.2) (hn : hi.2 < c.rows.length)
    (l : List Placed) (hl : tiles c lo hi l) (hcol : ∀ p ∈ l, p.sprite.color.OK) :
    ∃ img order, generate icons c lo hi = some img ∧ img.OK ∧
      DrawOrder (l.filter fun p => c.passes.all (·.spriteFilter p.sprite)) order ∧
      img.width = 32 * (hi.1 - lo.1 + 1) ∧ img.height = 32 * (hi.2 - lo.2 + 1) ∧
      ∀ X V, X < img.width → V < img.height →
        img.at X (img.height - 1 - V) =
          paint (order.map fun p => stamp icons p.x (c.rows.length - 1 - p.y) p.sprite (32 * lo.1 + X) (32 * lo.2 + V))
            ⟨0, 0, 0, 0⟩ := by
  have hgen : generate icons c lo hi = drawAll icons lo.1 (c.rows.length - hi.2 - 1)
      (sortPlaced (l.filter fun p => c.passes.all (·.spriteFilter p.sprite)))
      (Image.blank ((hi.1 - lo.1 + 1) * TILE) ((hi.2 - lo.2 + 1) * TILE)) := by
    unfold generate
    rw [if_neg (by omega)]
    simp only
    rw [levelSprites_tiles c lo hi h1 h2 hn l hl, Option.bind_some]
  obtain ⟨img, e1, e2, e3, e4, e5⟩ := drawAll_exact icons hic c.rows.length lo.1 lo.2 hi.2 h2 hn
    (sortPlaced (l.filter fun p => c.passes.all (·.spriteFilter p.sprite)))
    (Image.blank ((hi.1 - lo.1 + 1) * TILE) ((hi.2 - lo.2 + 1) * TILE)) (blank_ok _ _) rfl (by
      intro p hp
      have hp' : p ∈ l := List.mem_of_mem_filter ((sort_perm _).mem_iff.1 hp)
      have := tiles_at c lo hi hn l hl p hp'
      exact ⟨this.1, by omega, this.2.2.1, hcol p hp'⟩)
  have e3' : img.width = (hi.1 - lo.1 + 1) * TILE := e3
  have e4' : img.height = (hi.2 - lo.2 + 1) * TILE := e4
  refine ⟨img, _, hgen.trans e1, e2, sort_order _, by rw [e3', Nat.mul_comm]; rfl,
    by rw [e4', Nat.mul_comm]; rfl, fun X V hX hV => ?_⟩
  have := e5 X V (by rw [← e3]; exact hX) (by rw [← e4]; exact hV)
  rw [← e4] at this
  rw [this, blank_at _ _ _ _ (by rw [← e3']; exact hX) (by rw [← e4']; omega)]
  rfl

/-! ## Rendering does not panic -/

/-- a pass whose colours are bytes: in the program the type says so -/
structure Pass.Typed (p : Pass) : Prop where
  adjust : ∀ a s, s.color.OK → (p.adjust a s).color.OK
  overlays : ∀ a, a.sprite.color.OK → ∀ s ∈ (p.overlays a).1 ++ (p.overlays a).2, s.color.OK
  nbhd : ∀ a n, a.sprite.color.OK → ∀ s ∈ (p.nbhd a n).1, s.color.OK

theorem adjustAll_ok (a : Atom) (ps : List Pass) (h : ∀ p ∈ ps, p.Typed) : ∀ s : Sprite, s.color.OK →
    (adjustAll a ps s).color.OK := by
  induction ps with
  | nil => intro s hs; exact hs
  | cons p ps ih =>
    intro s hs
    exact ih (fun q hq => h q (by simp [hq])) _ ((h p (by simp)).adjust a s hs)

theorem overlaysAll_ok (a : Atom) (ha : a.sprite.color.OK) (ps : List Pass) (h : ∀ p ∈ ps, p.Typed) :
    ∀ s ∈ (overlaysAll a ps).1 ++ (overlaysAll a ps).2, s.color.OK := by
  induction ps with
  | nil => intro s hs; cases hs
  | cons p ps ih =>
    intro s hs
    have ih' := ih fun q hq => h q (by simp [hq])
    have h1 := (h p (by simp)).overlays a ha
    simp only [overlaysAll, List.mem_append] at hs ih' h1
    rcases hs with (hs | hs) | (hs | hs)
    · exact h1 s (Or.inl hs)
    · exact ih' s (Or.inl hs)
    · exact h1 s (Or.inr hs)
    · exact ih' s (Or.inr hs)

theorem nbhdAll_ok (a : Atom) (ha : a.sprite.color.OK) (n : List (List Atom)) (ps : List Pass) (h : ∀ p ∈ ps, p.Typed) :
    ∀ s ∈ (nbhdAll a n ps).1, s.color.OK := by
  induction ps with
  | nil => intro s hs; cases hs
  | cons p ps ih =>
    intro s hs
    simp only [nbhdAll, List.mem_append] at hs
    rcases hs with hs | hs
    · exact (h p (by simp)).nbhd a n ha s hs
    · exact ih (fun q hq => h q (by simp [hq])) s hs

/-- a level that can be drawn: a full grid, every key of it in the dictionary, every colour readable -/
structure Drawable (c : Ctx) : Prop where
  grid : ∀ r ∈ c.rows, r.length = c.dimX
  keys : ∀ r ∈ c.rows, ∀ k ∈ r, ∃ fabs, c.dict.lookup k = some fabs
  colors : ∀ k as, c.atoms k = some as → ∀ a ∈ as, ∃ p, colorOf a = some p
  passes : ∀ p ∈ c.passes, p.Typed

theorem Drawable.at {c : Ctx} (h : Drawable c) (x y : Nat) (hx : x < c.dimX) (hy : y < c.rows.length) :
    ∃ key atoms, (c.rows[y]?).bind (·[x]?) = some key ∧ c.atoms key = some atoms := by
  have hr : c.rows[y] ∈ c.rows := List.getElem_mem hy
  have hl := h.grid _ hr
  have hx' : x < (c.rows[y]).length := by omega
  obtain ⟨fabs, hf⟩ := h.keys _ hr _ (List.getElem_mem hx')
  exact ⟨(c.rows[y])[x], _,
    by rw [List.getElem?_eq_getElem hy, Option.bind_some, List.getElem?_eq_getElem hx'], by unfold Ctx.atoms; rw [hf]; rfl⟩

theorem Drawable.neighbor {c : Ctx} (h : Drawable c) (x y : Nat) (d : Int × Int) : ∃ as, c.neighbor x y d = some as := by
  unfold Ctx.neighbor
  simp only
  split
  · exact ⟨[], rfl⟩
  · obtain ⟨key, atoms, h1, h2⟩ := h.at ((x : Int) + d.1).toNat ((y : Int) - d.2).toNat (by omega) (by omega)
    exact ⟨atoms, by rw [h1, Option.bind_some, h2]⟩

theorem Drawable.neighbors {c : Ctx} (h : Drawable c) (x y : Nat) (ds : List (Int × Int)) :
    ∃ n, neighbors c x y ds = some n := by
  induction ds with
  | nil => exact ⟨[], rfl⟩
  | cons d ds ih =>
    obtain ⟨a, ha⟩ := h.neighbor x y d
    obtain ⟨n, hn⟩ := ih
    exact ⟨a :: n, by rw [Minimap.neighbors, ha, hn]; rfl⟩

theorem Drawable.atom {c : Ctx} (h : Drawable c) (x y : Nat) (a : Atom) (ha : ∃ p, colorOf a = some p) :
    ∃ l, atomSprites c x y a = some l ∧ ∀ s ∈ l, s.color.OK := by
  unfold atomSprites
  split
  · obtain ⟨p, hp⟩ := ha
    have hok := colorOf_ok hp
    unfold fromVars
    rw [hp, Option.map_some, Option.bind_some]
    simp only
    split
    · exact ⟨[], rfl, fun _ hs => absurd hs (by simp)⟩
    · obtain ⟨n, hn⟩ := h.neighbors x y GRID
      rw [hn, Option.map_some]
      refine ⟨_, rfl, fun s hs => ?_⟩
      have hs0 := adjustAll_ok a c.passes h.passes { icon := (asPathStr (a.var "icon")).getD []
                                                     iconState := ((a.var "icon_state").asStr).getD []
                                                     dir := ((a.var "dir").toInt.bind Dir.fromInt).getD .south
                                                     color := p
                                                     ofsX := a.int "pixel_x" + a.int "pixel_w" + a.int "step_x"
                                                     ofsY := a.int "pixel_y" + a.int "pixel_z" + a.int "step_y"
                                                     plane := planeOf a
                                                     layer := layerOf a } hok
      simp only [List.mem_append] at hs
      rcases hs with ((hs | hs) | hs) | hs
      · exact overlaysAll_ok { a with sprite := _ } hs0 c.passes h.passes s (List.mem_append.2 (Or.inl hs))
      · exact nbhdAll_ok { a with sprite := _ } hs0 n c.passes h.passes s hs
      · split at hs
        · rw [List.mem_singleton.1 hs]
          exact hs0
        · cases hs
      · exact overlaysAll_ok { a with sprite := _ } hs0 c.passes h.passes s (List.mem_append.2 (Or.inr hs))
  · exact ⟨[], rfl, fun _ hs => absurd hs (by simp)⟩

theorem Drawable.tile {c : Ctx} (h : Drawable c) (x y : Nat) (as : List Atom) (ha : ∀ a ∈ as, ∃ p, colorOf a = some p) :
    ∃ l, tileSprites c x y as = some l ∧ ∀ s ∈ l, s.sprite.color.OK := by
  induction as with
  | nil => exact ⟨[], rfl, fun _ hs => absurd hs (by simp)⟩
  | cons a as ih =>
    obtain ⟨l, hl, h1⟩ := h.atom x y a (ha a (by simp))
    obtain ⟨r, hr, h2⟩ := ih fun b hb => ha b (by simp [hb])
    refine ⟨l.map (⟨x, y, ·⟩) ++ r, by rw [tileSprites, hl, hr]; rfl, fun s hs => ?_⟩
    rcases List.mem_append.1 hs with hs | hs
    · obtain ⟨t, ht, rfl⟩ := List.mem_map.1 hs
      exact h1 t ht
    · exact h2 s hs

/-- the sprites of every rectangle within a drawable level exist -/
theorem Drawable.tiles {c : Ctx} (h : Drawable c) (lo hi : Nat × Nat) (hx : hi.1 < c.dimX) (hn : hi.2 < c.rows.length) :
    ∃ l, Minimap.tiles c lo hi l ∧ ∀ p ∈ l, p.sprite.color.OK := by
  classical
  have key : ∀ tx ty, tx ≤ hi.1 → ty ≤ hi.2 → ∃ l, (∃ key atoms,
      (c.rows[c.rows.length - 1 - ty]?).bind (·[tx]?) = some key ∧ c.atoms key = some atoms ∧
      tileSprites c tx (c.rows.length - 1 - ty) atoms = some l) ∧ ∀ p ∈ l, p.sprite.color.OK := by
    intro tx ty h1 h2
    obtain ⟨key, atoms, e1, e2⟩ := h.at tx (c.rows.length - 1 - ty) (by omega) (by omega)
    obtain ⟨l, e3, e4⟩ := h.tile tx (c.rows.length - 1 - ty) atoms (h.colors key atoms e2)
    exact ⟨l, ⟨key, atoms, e1, e2, e3⟩, e4⟩
  let look : Nat → Nat → List Placed := fun tx ty =>
    if h : tx ≤ hi.1 ∧ ty ≤ hi.2 then Classical.choose (key tx ty h.1 h.2) else []
  refine ⟨_, ⟨look, fun tx ty _ h1 _ h2 => ?_, rfl⟩, fun p hp => ?_⟩
  · simp only [look]
    rw [dif_pos ⟨h1, h2⟩]
    exact (Classical.choose_spec (key tx ty h1 h2)).1
  · simp only [List.mem_flatMap] at hp
    obtain ⟨ty, _, tx, _, hp⟩ := hp
    simp only [look] at hp
    split at hp
    · rename_i hh
      exact (Classical.choose_spec (key tx ty hh.1 hh.2)).2 p hp
    · cases hp

/-- **C70.** A rectangle within a drawable level is drawn, whatever the passes and icons. -/
theorem minimap_total (icons : List Char → Option (Icon D)) (hic : ∀ f ic, icons f = some ic → SheetOK ic)
    (c : Ctx) (hc : Drawable c) (lo hi : Nat × Nat) (h1 : lo.1 ≤ hi.1) (h2 : lo.2 ≤ hi.2) (hx : hi.1 < c.dimX)
    (hn : hi.2 < c.rows.length) :
    ∃ img l, generate icons c lo hi = some img ∧ tiles c lo hi l ∧ (∀ p ∈ l, p.sprite.color.OK) ∧
      img.width = 32 * (hi.1 - lo.1 + 1) ∧ img.height = 32 * (hi.2 - lo.2 + 1) := by
  obtain ⟨l, hl, hcol⟩ := hc.tiles lo hi hx hn
  obtain ⟨img, _, e1, _, _, e2, e3, _⟩ := minimap_pixels icons hic c lo hi h1 h2 hn l hl hcol
  exact ⟨img, l, e1, hl, hcol, e2, e3⟩

/-- **C70, disagreement.** A rectangle reaching above the level panics. -/
theorem minimap_above_panics (icons : List Char → Option (Icon D)) (c : Ctx) (lo hi : Nat × Nat)
    (h : c.rows.length ≤ hi.2) : generate icons c lo hi = none := by
  unfold generate
  rw [if_pos (by omega)]

/-! ## C71: parts of the picture -/

theorem filter_range'_from (A n a b : Nat) (hA : A ≤ a) (hab : a ≤ b + 1) (hb : b < A + n) :
    (List.range' A n).filter (fun i => a ≤ i && i ≤ b) = List.range' a (b + 1 - a) := by
  have e : List.range' A n =
      List.range' A (a - A) ++ (List.range' a (b + 1 - a) ++ List.range' (b + 1) (A + n - (b + 1))) := by
    have h1 := List.range'_append (s := a) (m := b + 1 - a) (n := A + n - (b + 1)) (step := 1)
    have h2 := List.range'_append (s := A) (m := a - A) (n := (b + 1 - a) + (A + n - (b + 1))) (step := 1)
    simp only [Nat.one_mul] at h1 h2
    rw [show a + (b + 1 - a) = b + 1 by omega] at h1
    rw [show A + (a - A) = a by omega, show a - A + (b + 1 - a + (A + n - (b + 1))) = n by omega] at h2
    rw [h1, h2]
  rw [e, List.filter_append, List.filter_append, List.filter_eq_nil_iff.2, List.filter_eq_self.2,
    List.filter_eq_nil_iff.2]
  · simp
  · intro i hi; simp only [List.mem_range'_1] at hi; simp; omega
  · intro i hi; simp only [List.mem_range'_1] at hi; simp; omega
  · intro i hi; simp only [List.mem_range'_1] at hi; simp; omega

theorem flatMap_filter' {α β : Type} (l : List α) (p : α → Bool) (f g : α → List β)
    (h1 : ∀ a ∈ l, p a = true → g a = f a) (h2 : ∀ a ∈ l, p a = false → g a = []) :
    l.flatMap g = (l.filter p).flatMap f := by
  induction l with
  | nil => rfl
  | cons a l ih =>
    rw [List.flatMap_cons, ih (fun b hb => h1 b (by simp [hb])) (fun b hb => h2 b (by simp [hb])), List.filter_cons]
    cases hp : p a with
    | true => rw [if_pos rfl, List.flatMap_cons, h1 a (by simp) hp]
    | false => rw [if_neg Bool.false_ne_true, h2 a (by simp) hp, List.nil_append]

/-- a sprite of a tile of the rectangle; the row of the tile counts from the bottom, `n` is the number of rows -/
def Inside (n : Nat) (lo hi : Nat × Nat) (p : Placed) : Prop :=
  lo.1 ≤ p.x ∧ p.x ≤ hi.1 ∧ lo.2 ≤ n - 1 - p.y ∧ n - 1 - p.y ≤ hi.2

instance (n : Nat) (lo hi : Nat × Nat) (p : Placed) : Decidable (Inside n lo hi p) := by
  unfold Inside; infer_instance

/-- the sprites of a part are those of the whole that are inside the part -/
theorem tiles_part (c : Ctx) (LO HI lo hi : Nat × Nat) (h1 : lo.1 ≤ hi.1) (h2 : lo.2 ≤ hi.2)
    (hlo1 : LO.1 ≤ lo.1) (hlo2 : LO.2 ≤ lo.2) (hhi1 : hi.1 ≤ HI.1) (hhi2 : hi.2 ≤ HI.2) (hn : HI.2 < c.rows.length)
    (L : List Placed) (hL : tiles c LO HI L) :
    tiles c lo hi (L.filter fun p => Inside c.rows.length lo hi p) := by
  obtain ⟨look, hlook, rfl⟩ := hL
  refine ⟨look, fun tx ty a1 a2 a3 a4 => hlook tx ty (by omega) (by omega) (by omega) (by omega), ?_⟩
  have hat : ∀ tx ty, LO.1 ≤ tx → tx ≤ HI.1 → LO.2 ≤ ty → ty ≤ HI.2 → ∀ p ∈ look tx ty,
      p.x = tx ∧ c.rows.length - 1 - p.y = ty := by
    intro tx ty a1 a2 a3 a4 p hp
    obtain ⟨_, as, _, _, ht⟩ := hlook tx ty a1 a2 a3 a4
    obtain ⟨e1, e2⟩ := tileSprites_at c _ _ as _ ht p hp
    exact ⟨e1, by omega⟩
  rw [List.filter_flatMap]
  rw [flatMap_filter' _ (fun ty => lo.2 ≤ ty && ty ≤ hi.2)
    (fun ty => (List.range' lo.1 (hi.1 + 1 - lo.1)).flatMap fun tx => look tx ty)]
  · rw [List.filter_reverse, filter_range'_from LO.2 _ lo.2 hi.2 hlo2 (by omega) (by omega)]
  · intro ty hty hp
    simp only [List.mem_reverse, List.mem_range'_1] at hty
    simp only [Bool.and_eq_true, decide_eq_true_eq] at hp
    rw [List.filter_flatMap]
    rw [flatMap_filter' _ (fun tx => lo.1 ≤ tx && tx ≤ hi.1) (fun tx => look tx ty)]
    · rw [filter_range'_from LO.1 _ lo.1 hi.1 hlo1 (by omega) (by omega)]
    · intro tx htx hq
      simp only [List.mem_range'_1] at htx
      simp only [Bool.and_eq_true, decide_eq_true_eq] at hq
      rw [List.filter_eq_self]
      intro p hp'
      have := hat tx ty (by omega) (by omega) (by omega) (by omega) p hp'
      rw [decide_eq_true_eq]
      unfold Inside
      omega
    · intro tx htx hq
      simp only [List.mem_range'_1] at htx
      simp only [Bool.and_eq_false_iff, decide_eq_false_iff_not] at hq
      rw [List.filter_eq_nil_iff]
      intro p hp'
      have := hat tx ty (by omega) (by omega) (by omega) (by omega) p hp'
      rw [decide_eq_true_eq]
      unfold Inside
      omega
  · intro ty hty hp
    simp only [List.mem_reverse, List.mem_range'_1] at hty
    simp only [Bool.and_eq_false_iff, decide_eq_false_iff_not] at hp
    rw [List.filter_eq_nil_iff]
    intro p hp'
    simp only [List.mem_flatMap, List.mem_range'_1] at hp'
    obtain ⟨tx, htx, hp'⟩ := hp'
    have := hat tx ty (by omega) (by omega) (by omega) (by omega) p hp'
    rw [decide_eq_true_eq]
    unfold Inside
    omega

theorem paint_filter {α : Type} (f : α → Option Px) (g : α → Bool) (l : List α)
    (h : ∀ a ∈ l, g a = false → f a = none) : ∀ p, paint (l.map f) p = paint ((l.filter g).map f) p := by
  induction l with
  | nil => intro p; rfl
  | cons a l ih =>
    intro p
    have ih' := ih fun b hb => h b (by simp [hb])
    rw [List.filter_cons]
    cases hg : g a with
    | true =>
      rw [if_pos rfl, List.map_cons, List.map_cons]
      cases hf : f a with
      | none => exact ih' p
      | some s =>
        simp only [paint]
        cases blend s p with
        | none => rfl
        | some q => exact ih' q
    | false =>
      rw [if_neg Bool.false_ne_true, List.map_cons, h a (by simp) hg]
      exact ih' p

theorem generate_sorted (icons : List Char → Option (Icon D)) (hic : ∀ f ic, icons f = some ic → SheetOK ic)
    (c : Ctx) (lo hi : Nat × Nat) (h1 : lo.1 ≤ hi.1) (h2 : lo.2 ≤ hi.2) (hn : hi.2 < c.rows.length)
    (l : List Placed) (hl : tiles c lo hi l) (hcol : ∀ p ∈ l, p.sprite.color.OK) (img : Image)
    (hg : generate icons c lo hi = some img) :
    img.width = 32 * (hi.1 - lo.1 + 1) ∧ img.height = 32 * (hi.2 - lo.2 + 1) ∧
      ∀ X V, X < img.width → V < img.height →
        img.at X (img.height - 1 - V) =
          paint ((sortPlaced (l.filter fun p => c.passes.all (·.spriteFilter p.sprite))).map fun p =>
            stamp icons p.x (c.rows.length - 1 - p.y) p.sprite (32 * lo.1 + X) (32 * lo.2 + V)) ⟨0, 0, 0, 0⟩ := by
  have hgen : generate icons c lo hi = drawAll icons lo.1 (c.rows.length - hi.2 - 1)
      (sortPlaced (l.filter fun p => c.passes.all (·.spriteFilter p.sprite)))
      (Image.blank ((hi.1 - lo.1 + 1) * TILE) ((hi.2 - lo.2 + 1) * TILE)) := by
    unfold generate
    rw [if_neg (by omega)]
    simp only
    rw [levelSprites_tiles c lo hi h1 h2 hn l hl, Option.bind_some]
  obtain ⟨img', e1, e2, e3, e4, e5⟩ := drawAll_exact icons hic c.rows.length lo.1 lo.2 hi.2 h2 hn
    (sortPlaced (l.filter fun p => c.passes.all (·.spriteFilter p.sprite)))
    (Image.blank ((hi.1 - lo.1 + 1) * TILE) ((hi.2 - lo.2 + 1) * TILE)) (blank_ok _ _) rfl (by
      intro p hp
      have hp' : p ∈ l := List.mem_of_mem_filter ((sort_perm _).mem_iff.1 hp)
      have := tiles_at c lo hi hn l hl p hp'
      exact ⟨this.1, by omega, this.2.2.1, hcol p hp'⟩)
  rw [hgen, e1] at hg
  cases hg
  have e3' : img.width = (hi.1 - lo.1 + 1) * TILE := e3
  have e4' : img.height = (hi.2 - lo.2 + 1) * TILE := e4
  refine ⟨by rw [e3', Nat.mul_comm]; rfl, by rw [e4', Nat.mul_comm]; rfl, fun X V hX hV => ?_⟩
  have := e5 X V (by rw [← e3]; exact hX) (by rw [← e4]; exact hV)
  rw [← e4] at this
  rw [this, blank_at _ _ _ _ (by rw [← e3']; exact hX) (by rw [← e4']; omega)]
  rfl

/-- **C71.** The picture of a part of a rectangle shows what the picture of the whole rectangle shows there, at every
pixel no sprite of a tile outside the part reaches. -/
theorem part_of_picture (icons : List Char → Option (Icon D)) (hic : ∀ f ic, icons f = some ic → SheetOK ic)
    (c : Ctx) (LO HI lo hi : Nat × Nat) (h1 : lo.1 ≤ hi.1) (h2 : lo.2 ≤ hi.2)
    (hlo1 : LO.1 ≤ lo.1) (hlo2 : LO.2 ≤ lo.2) (hhi1 : hi.1 ≤ HI.1) (hhi2 : hi.2 ≤ HI.2) (hn : HI.2 < c.rows.length)
    (L : List Placed) (hL : tiles c LO HI L) (hcol : ∀ p ∈ L, p.sprite.color.OK)
    (whole part : Image) (hw : generate icons c LO HI = some whole) (hp : generate icons c lo hi = some part)
    (X V : Nat) (hX : X < part.width) (hV : V < part.height)
    (hout : ∀ p ∈ L, ¬ Inside c.rows.length lo hi p →
      stamp icons p.x (c.rows.length - 1 - p.y) p.sprite (32 * lo.1 + X) (32 * lo.2 + V) = none) :
    part.at X (part.height - 1 - V) =
      whole.at (32 * (lo.1 - LO.1) + X) (whole.height - 1 - (32 * (lo.2 - LO.2) + V)) := by
  have hl := tiles_part c LO HI lo hi h1 h2 hlo1 hlo2 hhi1 hhi2 hn L hL
  obtain ⟨w1, w2, w3⟩ := generate_sorted icons hic c LO HI (by omega) (by omega) hn L hL hcol whole hw
  obtain ⟨p1, p2, p3⟩ := generate_sorted icons hic c lo hi h1 h2 (by omega) _ hl
    (fun p hp => hcol p (List.mem_of_mem_filter hp)) part hp
  rw [p3 X V hX hV, w3 _ _ (by omega) (by omega)]
  have ex : (32 * (LO.1 : Int) + ((32 * (lo.1 - LO.1) + X : Nat) : Int)) = 32 * lo.1 + X := by omega
  have ey : (32 * (LO.2 : Int) + ((32 * (lo.2 - LO.2) + V : Nat) : Int)) = 32 * lo.2 + V := by omega
  rw [ex, ey, List.filter_filter]
  rw [paint_filter _ (fun p => decide (Inside c.rows.length lo hi p))
    (sortPlaced (L.filter fun p => c.passes.all (·.spriteFilter p.sprite)))]
  · rw [filter_sort, List.filter_filter]
    congr 3
    apply List.filter_congr
    intro p _
    exact Bool.and_comm _ _
  · intro p hp hg
    exact hout p (List.mem_of_mem_filter ((sort_perm _).mem_iff.1 hp)) (by simpa using hg)

/-- **C71.** When no sprite leaves its tile, the picture of a part is exactly cut out of the picture of the whole. -/
theorem part_is_cut_out (icons : List Char → Option (Icon D)) (hic : ∀ f ic, icons f = some ic → SheetOK ic)
    (c : Ctx) (LO HI lo hi : Nat × Nat) (h1 : lo.1 ≤ hi.1) (h2 : lo.2 ≤ hi.2)
    (hlo1 : LO.1 ≤ lo.1) (hlo2 : LO.2 ≤ lo.2) (hhi1 : hi.1 ≤ HI.1) (hhi2 : hi.2 ≤ HI.2) (hn : HI.2 < c.rows.length)
    (L : List Placed) (hL : tiles c LO HI L) (hcol : ∀ p ∈ L, p.sprite.color.OK)
    (whole part : Image) (hw : generate icons c LO HI = some whole) (hp : generate icons c lo hi = some part)
    (hstay : ∀ p ∈ L, ∀ ic, icons p.sprite.icon = some ic → p.sprite.ofsX = 0 ∧ p.sprite.ofsY = 0 ∧
      ∀ r, ic.info.rectOf ic.image.width (p.sprite.iconState, 0) p.sprite.dir 0 = some (some r) → r.w ≤ 32 ∧ r.h ≤ 32) :
    ∀ X V, X < part.width → V < part.height → part.at X (part.height - 1 - V) =
      whole.at (32 * (lo.1 - LO.1) + X) (whole.height - 1 - (32 * (lo.2 - LO.2) + V)) := by
  intro X V hX hV
  refine part_of_picture icons hic c LO HI lo hi h1 h2 hlo1 hlo2 hhi1 hhi2 hn L hL hcol whole part hw hp X V hX hV ?_
  intro p hpL hins
  have hl := tiles_part c LO HI lo hi h1 h2 hlo1 hlo2 hhi1 hhi2 hn L hL
  obtain ⟨p1, p2, _⟩ := generate_sorted icons hic c lo hi h1 h2 (by omega) _ hl
    (fun p hp => hcol p (List.mem_of_mem_filter hp)) part hp
  unfold stamp
  cases hi' : icons p.sprite.icon with
  | none => rfl
  | some ic =>
    obtain ⟨o1, o2, hr⟩ := hstay p hpL ic hi'
    rw [Option.bind_some]
    cases hrect : ic.info.rectOf ic.image.width (p.sprite.iconState, 0) p.sprite.dir 0 with
    | none => rfl
    | some o =>
      cases o with
      | none => rfl
      | some r =>
        have hr' := hr r hrect
        simp only [Option.join_some, Option.bind_some]
        rw [if_neg]
        unfold Inside at hins
        rw [o1, o2]
        omega

end Verif.Minimap
